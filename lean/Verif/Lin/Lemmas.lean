/- Helper lemmas for linear elements. -/
import Verif.Lin.Spec
import Verif.Core.Sum
import Mathlib.Tactic.Linarith
import Mathlib.Tactic.Ring
import Mathlib.Tactic.FieldSimp

set_option linter.unusedSectionVars false

namespace C3.Lin
variable {K : Type} [Field K] [LinearOrder K] [IsStrictOrderedRing K]

theorem dv_ok {a b : K} (h : b ≠ 0) : dv a b = .ok (a / b) := by rw [dv, if_neg h]

theorem LE.rd_nd {f : LE K} (h : f.WF) {i : Nat} (hi : i < f.num) : rd f.nodes i = .ok (f.nd i) :=
  rd_getD 0 (by rw [h.hn]; exact hi)
theorem LE.rd_cf {f : LE K} (h : f.WF) {i : Nat} (hi : i < f.num) : rd f.coeff i = .ok (f.cf i) :=
  rd_getD 0 (by rw [h.hc]; exact hi)

theorem LE.WF.lt {f : LE K} (h : f.WF) {i j : Nat} (hij : i < j) (hj : j < f.num) : f.nd i < f.nd j := by
  induction j with
  | zero => omega
  | succ j ih =>
    rcases Nat.lt_succ_iff_lt_or_eq.1 hij with h1 | h1
    · exact (ih h1 (by omega)).trans (h.inc j hj)
    · subst h1; exact h.inc i hj

theorem LE.WF.le {f : LE K} (h : f.WF) {i j : Nat} (hij : i ≤ j) (hj : j < f.num) : f.nd i ≤ f.nd j := by
  rcases Nat.lt_or_eq_of_le hij with h1 | h1
  · exact (h.lt h1 hj).le
  · rw [h1]

/-- The search returns a position whose interval contains the point, or whose node is within the tolerance. -/
theorem bisect_ok {tol x : K} {f : LE K} (hf : f.WF) :
    ∀ fuel lo hi, lo < hi → hi < f.num → hi - lo < fuel → f.nd lo ≤ x → x ≤ f.nd hi →
      ∃ i, bisect tol f.nodes x fuel lo hi = .ok i ∧ i + 1 < f.num ∧
        ((f.nd i ≤ x ∧ x ≤ f.nd (i + 1)) ∨ |x - f.nd i| ≤ tol) := by
  intro fuel
  induction fuel with
  | zero => intro lo hi _ _ h; omega
  | succ fuel ih =>
    intro lo hi hlt hhi hfu hl hh
    rw [bisect]
    by_cases h0 : lo + (hi - lo) / 2 = lo
    · rw [if_pos h0]
      have : hi = lo + 1 := by omega
      subst this
      exact ⟨lo, rfl, hhi, .inl ⟨hl, hh⟩⟩
    · rw [if_neg h0, LE.rd_nd hf (by omega), bind_ok]
      by_cases h1 : |x - f.nd (lo + (hi - lo) / 2)| ≤ tol
      · rw [if_pos h1]
        exact ⟨_, rfl, by omega, .inr h1⟩
      · rw [if_neg h1]
        by_cases h2 : x < f.nd (lo + (hi - lo) / 2)
        · rw [if_pos h2]
          exact ih _ _ (by omega) (by omega) (by omega) hl h2.le
        · rw [if_neg h2]
          exact ih _ _ (by omega) (by omega) (by omega) (not_lt.1 h2) hh

theorem findInterval_ok {tol x : K} {f : LE K} (hf : f.WF) (hl : f.nd 0 ≤ x) (hh : x ≤ f.nd (f.num - 1)) :
    ∃ i, findInterval tol f x = .ok i ∧ i + 1 < f.num ∧ ((f.nd i ≤ x ∧ x ≤ f.nd (i + 1)) ∨ |x - f.nd i| ≤ tol) := by
  have := hf.two
  rw [findInterval, if_neg (by omega)]
  exact bisect_ok hf _ _ _ (by omega) (by omega) (by omega) hl hh

theorem findInterval_congr {tol x : K} {f g : LE K} (h1 : f.num = g.num) (h2 : f.nodes = g.nodes) :
    findInterval tol f x = findInterval tol g x := by rw [findInterval, findInterval, h1, h2]

theorem WF.swap {f : LE K} (hf : f.WF) {c : List K} (hc : c.length = f.num) : (LE.mk f.num f.nodes c).WF :=
  ⟨hf.hn, hc, hf.two, hf.inc⟩

theorem eval_out {tol x : K} {f : LE K} (hf : f.WF) (h : x < f.nd 0 ∨ f.nd (f.num - 1) < x) : eval tol f x = .ok 0 := by
  have := hf.two
  rw [eval, if_neg (by omega), LE.rd_nd hf (by omega), bind_ok, LE.rd_nd hf (by omega), bind_ok, if_pos h]

/-- Inside the node range, evaluation is a convex combination of two neighbouring coefficients, with weights that do not
depend on the coefficients. -/
theorem eval_form {tol x : K} {f : LE K} (hf : f.WF) (ht : 0 ≤ tol) (hl : f.nd 0 ≤ x) (hh : x ≤ f.nd (f.num - 1)) :
    ∃ i t, i + 1 < f.num ∧ 0 ≤ t ∧ t ≤ 1 ∧
      (∀ c, c.length = f.num → eval tol ⟨f.num, f.nodes, c⟩ x = .ok (c.getD i 0 * t + c.getD (i + 1) 0 * (1 - t))) ∧
      ((f.nd i ≤ x ∧ x ≤ f.nd (i + 1) ∧ t = (f.nd (i + 1) - x) / (f.nd (i + 1) - f.nd i)) ∨ (t = 1 ∧ |x - f.nd i| ≤ tol)) := by
  obtain ⟨i, h1, h2, h3⟩ := findInterval_ok (tol := tol) hf hl hh
  have two := hf.two
  have hd : 0 < f.nd (i + 1) - f.nd i := sub_pos.2 (hf.inc i h2)
  have key : ∀ c : List K, c.length = f.num → eval tol ⟨f.num, f.nodes, c⟩ x = evalAt tol ⟨f.num, f.nodes, c⟩ x i := by
    intro c hc
    rw [eval, if_neg (show ¬ f.num = 0 by omega)]
    dsimp only
    rw [LE.rd_nd hf (by omega), bind_ok, LE.rd_nd hf (by omega), bind_ok, if_neg (by
      rintro (h | h)
      · exact absurd hl (not_le.2 h)
      · exact absurd hh (not_le.2 h)),
      findInterval_congr (f := ⟨f.num, f.nodes, c⟩) (g := f) rfl rfl, h1, bind_ok]
  by_cases hs : |x - f.nd i| ≤ tol
  · refine ⟨i, 1, h2, zero_le_one, le_rfl, ?_, .inr ⟨rfl, hs⟩⟩
    intro c hc
    rw [key c hc, evalAt]
    dsimp only
    rw [LE.rd_nd hf (by omega), bind_ok, if_pos hs, rd_getD 0 (by omega)]
    simp
  · rcases h3 with ⟨ha, hb⟩ | h3
    · refine ⟨i, (f.nd (i + 1) - x) / (f.nd (i + 1) - f.nd i), h2, div_nonneg (sub_nonneg.2 hb) hd.le,
        (div_le_one hd).2 (by linarith), ?_, .inl ⟨ha, hb, rfl⟩⟩
      intro c hc
      rw [key c hc, evalAt]
      dsimp only
      rw [LE.rd_nd hf (by omega), bind_ok, if_neg hs, LE.rd_nd hf h2, bind_ok, dv_ok hd.ne', bind_ok, rd_getD 0 (by omega),
        bind_ok, rd_getD 0 (by omega), bind_ok, pure_eq_ok]
    · exact absurd h3 hs

/-! ### The interpolant -/

theorem pl_left {xs ys : List K} {x : K} (hx : ∀ i, i + 1 < xs.length → xs.getD i 0 < xs.getD (i + 1) 0)
    (h : x < xs.getD 0 0) : pl xs ys x = 0 := by
  match xs, ys with
  | [], _ => simp [pl]
  | [a], _ => simp [pl]
  | a :: b :: xs, [] => simp [pl]
  | a :: b :: xs, [u] => simp [pl]
  | a :: b :: xs, u :: w :: ys =>
    have h1 : a < b := by simpa using hx 0 (by simp)
    have h2 : x < a := by simpa using h
    rw [pl, if_pos (h2.trans h1).le, if_pos h2]

theorem pl_right : ∀ (xs ys : List K) {x : K} (_ : ∀ i, i + 1 < xs.length → xs.getD i 0 < xs.getD (i + 1) 0)
    (_ : xs.getD (xs.length - 1) 0 < x), pl xs ys x = 0
  | [], _, _, _, _ => by simp [pl]
  | [a], _, _, _, _ => by simp [pl]
  | a :: b :: xs, [], _, _, _ => by simp [pl]
  | a :: b :: xs, [u], _, _, _ => by simp [pl]
  | a :: b :: xs, u :: w :: ys, x, hx, h => by
    have hb : b ≤ (b :: xs).getD ((b :: xs).length - 1) 0 := by
      have := LE.WF.le (f := ⟨(a :: b :: xs).length, a :: b :: xs, a :: b :: xs⟩) ⟨rfl, rfl, by simp, hx⟩
        (i := 1) (j := xs.length + 1) (by omega) (by simp)
      simpa [LE.nd] using this
    have h' : (b :: xs).getD ((b :: xs).length - 1) 0 < x := by simpa using h
    rw [pl, if_neg (not_le.2 (hb.trans_lt h'))]
    exact pl_right (b :: xs) (w :: ys) (fun i hi => by simpa using hx (i + 1) (by simp at hi ⊢; omega)) h'

/-- Between neighbouring nodes the interpolant is the chord. -/
theorem pl_between : ∀ (i : Nat) (xs ys : List K) {x : K} (_ : ∀ i, i + 1 < xs.length → xs.getD i 0 < xs.getD (i + 1) 0)
    (_ : ys.length = xs.length) (_ : i + 1 < xs.length) (_ : xs.getD i 0 ≤ x) (_ : x ≤ xs.getD (i + 1) 0),
    pl xs ys x = ys.getD i 0 + (ys.getD (i + 1) 0 - ys.getD i 0) / (xs.getD (i + 1) 0 - xs.getD i 0) * (x - xs.getD i 0)
  | _, [], _, _, _, _, h, _, _ => by simp at h
  | _, [a], _, _, _, _, h, _, _ => by simp at h
  | _, a :: b :: xs, [], _, _, h, _, _, _ => by simp at h
  | _, a :: b :: xs, [u], _, _, h, _, _, _ => by simp at h
  | 0, a :: b :: xs, u :: w :: ys, x, hx, hl, h, h1, h2 => by
    have h1' : a ≤ x := by simpa using h1
    have h2' : x ≤ b := by simpa using h2
    rw [pl, if_pos h2', if_neg (not_lt.2 h1')]
    simp
  | i + 1, a :: b :: xs, u :: w :: ys, x, hx, hl, h, h1, h2 => by
    have h' : i + 1 < (b :: xs).length := by simp at h ⊢; omega
    have hx' : ∀ i, i + 1 < (b :: xs).length → (b :: xs).getD i 0 < (b :: xs).getD (i + 1) 0 :=
      fun i hi => by simpa using hx (i + 1) (by simp at hi ⊢; omega)
    have ih := pl_between i (b :: xs) (w :: ys) (x := x) hx' (by simpa using hl) h' (by simpa using h1) (by simpa using h2)
    have e : ∀ (p : K) (l : List K) k, (p :: l).getD (k + 1) 0 = l.getD k 0 := by intros; simp
    rw [e, e, e a, e a, ← ih]
    by_cases hb : x ≤ b
    · have hbi : b ≤ (b :: xs).getD i 0 := by
        have := LE.WF.le (f := ⟨(a :: b :: xs).length, a :: b :: xs, a :: b :: xs⟩) ⟨rfl, rfl, by simp, hx⟩
          (i := 1) (j := i + 1) (by omega) (by simpa using Nat.lt_of_succ_lt h)
        simpa [LE.nd] using this
      have h1' : (b :: xs).getD i 0 ≤ x := by simpa using h1
      have hxb : x = b := le_antisymm hb (hbi.trans h1')
      have hab : a < b := by simpa using hx 0 (by simp)
      have i0 : i = 0 := by
        by_contra hi
        have := LE.WF.lt (f := ⟨(a :: b :: xs).length, a :: b :: xs, a :: b :: xs⟩) ⟨rfl, rfl, by simp, hx⟩
          (i := 1) (j := i + 1) (by omega) (by simpa using Nat.lt_of_succ_lt h)
        have h3 : b < (b :: xs).getD i 0 := by simpa [LE.nd] using this
        linarith
      subst i0
      rw [pl, if_pos hb, if_neg (by rw [hxb]; exact not_lt.2 hab.le), ih, hxb]
      have : b - a ≠ 0 := (sub_pos.2 hab).ne'
      simp
      field_simp
      ring
    · rw [pl, if_neg hb]

end C3.Lin

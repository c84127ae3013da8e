/-
Stochastic gradient descent: the shuffle is a permutation and can give every permutation; what the returned point, value, counters and code mean.
-/
import Verif.Opt.SgdModel
import Verif.Opt.BfgsLemmas
import Verif.Lin.Lemmas
import Mathlib.Tactic.Linarith
import Mathlib.Tactic.NormNum

set_option linter.unusedSectionVars false

namespace C3.Opt
open Finset
open C3.Lin (dv dv_ok)

variable {K : Type} [Field K] [LinearOrder K] [IsStrictOrderedRing K]

theorem rnd_lt {rmax r k : Nat} (hr : r ≤ rmax) (hk : 0 < k) : r / (rmax / k + 1) < k := by
  apply Nat.div_lt_of_lt_mul
  rw [Nat.mul_comm]
  exact lt_of_le_of_lt hr (Nat.lt_mul_div_succ rmax hk)

/-- One pass of the shuffle. -/
def shufStep (rmax : Nat) (rnd : Nat → Nat) (N ii : Nat) (st : Nat × List Nat) : C (Nat × List Nat) := do
  let jj := ii + rnd st.1 / (rmax / (N - ii) + 1)
  let t ← rd st.2 jj
  let v ← rd st.2 ii
  let o ← wr st.2 jj v
  let o ← wr o ii t
  pure (st.1 + 1, o)

theorem shuffle_eq (rmax : Nat) (rnd : Nat → Nat) (N : Nat) (st : Nat × List Nat) :
    shuffle rmax rnd N st = forN (N - 1) (shufStep rmax rnd N) st := by
  rw [shuffle]
  split
  · rfl
  · have : N - 1 = 0 := by omega
    rw [this]; rfl

theorem shufStep_ok {rmax : Nat} {rnd : Nat → Nat} {N ii c j : Nat} {o : List Nat} (ho : o.length = N) (hi : ii < N)
    (hj : j = ii + rnd c / (rmax / (N - ii) + 1)) (hjN : j < N) :
    shufStep rmax rnd N ii (c, o) = .ok (c + 1, (o.set j (o.getD ii 0)).set ii (o.getD j 0)) := by
  rw [shufStep]
  simp only [← hj]
  rw [rd_getD 0 (by omega), bind_ok, rd_getD 0 (by omega), bind_ok, wr_ok _ (by omega), bind_ok, wr_ok _ (by simp; omega), bind_ok]; rfl

theorem swap_perm {o : List Nat} {i j : Nat} (hi : i < o.length) (hj : j < o.length) : ((o.set j (o.getD i 0)).set i (o.getD j 0)).Perm o := by
  have := List.set_set_perm (as := o) hj hi
  simpa [hi, hj] using this

/-- C86: the shuffle only rearranges, whatever `rand()` returns (numbers up to `RAND_MAX`), and never leaves the array. -/
theorem shuffle_perm {rmax : Nat} {rnd : Nat → Nat} (hr : ∀ i, rnd i ≤ rmax) {N c : Nat} {o : List Nat} (ho : o.length = N) :
    ∃ o', shuffle rmax rnd N (c, o) = .ok (c + (N - 1), o') ∧ o'.Perm o := by
  rw [shuffle_eq]
  obtain ⟨st, h1, h2, h3⟩ := forN_spec (n := N - 1) (body := shufStep rmax rnd N) (s := (c, o)) (I := fun i st => st.1 = c + i ∧ st.2.Perm o)
    ⟨rfl, List.Perm.refl _⟩ (by
      intro i hi st ⟨s1, s2⟩
      obtain ⟨c', o'⟩ := st
      simp only at s1 s2
      have hl : o'.length = N := by rw [s2.length_eq, ho]
      have hj : i + rnd c' / (rmax / (N - i) + 1) < N := by
        have := rnd_lt (hr c') (show 0 < N - i by omega)
        omega
      refine ⟨_, shufStep_ok hl (by omega) rfl hj, by simp only; omega, ?_⟩
      exact (swap_perm (by omega) (by omega)).trans s2)
  obtain ⟨c', o'⟩ := st
  simp only at h2 h3
  exact ⟨o', by rw [h1, h2], h3⟩

theorem shufStep_congr {rmax : Nat} {rnd rnd' : Nat → Nat} {N ii : Nat} {st : Nat × List Nat} (h : rnd st.1 = rnd' st.1) :
    shufStep rmax rnd N ii st = shufStep rmax rnd' N ii st := by rw [shufStep, shufStep, h]

theorem reach {rmax N k j : Nat} (hN : N * (N - 1) ≤ rmax) (hk : k ≤ N) (hj : j < k) :
    j * (rmax / k + 1) ≤ rmax ∧ j * (rmax / k + 1) / (rmax / k + 1) = j := by
  refine ⟨?_, Nat.mul_div_cancel _ (Nat.succ_pos _)⟩
  have h1 : k * (k - 1) ≤ rmax := le_trans (Nat.mul_le_mul hk (by omega)) hN
  have h2 : k - 1 ≤ rmax / k := (Nat.le_div_iff_mul_le (by omega)).mpr (by rw [Nat.mul_comm]; exact h1)
  have h3 : k * (rmax / k) ≤ rmax := Nat.mul_div_le rmax k
  have h4 : j * (rmax / k + 1) ≤ (k - 1) * (rmax / k + 1) := Nat.mul_le_mul_right _ (by omega)
  have h5 : (k - 1) * (rmax / k + 1) + rmax / k + 1 = k * (rmax / k) + k := by
    obtain ⟨k, rfl⟩ : ∃ k', k = k' + 1 := ⟨k - 1, by omega⟩
    simp only [Nat.add_sub_cancel]; ring
  omega

/-- C86: every order can come out of the shuffle (of up to 46341 elements, with the usual `RAND_MAX = 2^31-1`). -/
theorem shuffle_any {rmax N : Nat} (hN : N * (N - 1) ≤ rmax) {c : Nat} {o t : List Nat} (ho : o.length = N) (hp : t.Perm o) :
    ∃ rnd : Nat → Nat, (∀ i, rnd i ≤ rmax) ∧ shuffle rmax rnd N (c, o) = .ok (c + (N - 1), t) := by
  have htl : t.length = N := by rw [hp.length_eq, ho]
  have key : ∀ n ≤ N - 1, ∃ r : Nat → Nat, (∀ i, r i ≤ rmax) ∧ ∃ o', (∀ rnd : Nat → Nat, (∀ i < n, rnd (c + i) = r i) →
      forN n (shufStep rmax rnd N) (c, o) = .ok (c + n, o')) ∧ o'.Perm o ∧ o'.take n = t.take n := by
    intro n
    induction n with
    | zero => intro _; exact ⟨fun _ => 0, fun _ => Nat.zero_le _, o, fun _ _ => rfl, List.Perm.refl _, rfl⟩
    | succ n ih =>
      intro hn
      obtain ⟨r, h1, o', h2, h3, h4⟩ := ih (by omega)
      have hol : o'.length = N := by rw [h3.length_eq, ho]
      -- the element wanted next is in the rest
      have hd : (o'.drop n).Perm (t.drop n) := by
        have e : (o'.take n ++ o'.drop n).Perm (t.take n ++ t.drop n) := by
          rw [List.take_append_drop, List.take_append_drop]; exact h3.trans hp.symm
        rw [h4] at e
        exact (List.perm_append_left_iff _).mp e
      have hmem : t.getD n 0 ∈ o'.drop n := by
        rw [hd.mem_iff, List.mem_iff_getElem]
        exact ⟨0, by simp; omega, by rw [List.getElem_drop]; simp [show n < t.length by omega]⟩
      obtain ⟨j, hj1, hj2⟩ := List.mem_iff_getElem.mp hmem
      rw [List.length_drop, hol] at hj1
      rw [List.getElem_drop] at hj2
      obtain ⟨g1, g2⟩ := reach hN (show N - n ≤ N by omega) hj1
      refine ⟨fun i => if i = n then j * (rmax / (N - n) + 1) else r i, ?_, (o'.set (n + j) (o'.getD n 0)).set n (o'.getD (n + j) 0), ?_, ?_, ?_⟩
      · intro i
        dsimp only
        split
        · exact g1
        · exact h1 i
      · intro rnd hrnd
        rw [forN_succ, h2 rnd (fun i hi => by rw [hrnd i (by omega)]; dsimp only; rw [if_neg (by omega)])]
        refine shufStep_ok hol (by omega) ?_ (by omega)
        rw [hrnd n (by omega)]; dsimp only; rw [if_pos rfl, g2]
      · exact (swap_perm (by omega) (by omega)).trans h3
      · have hv : o'.getD (n + j) 0 = t.getD n 0 := by rw [← hj2]; simp [show n + j < o'.length by omega]
        apply List.ext_getElem?
        intro i
        by_cases hi : i < n + 1
        · rw [List.getElem?_take_of_lt hi, List.getElem?_take_of_lt hi]
          by_cases hin : i = n
          · rw [hin, List.getElem?_set_self (by simp; omega), hv]
            simp [show n < t.length by omega]
          · rw [List.getElem?_set_ne (by omega), List.getElem?_set_ne (by omega)]
            have := congrArg (fun l => l[i]?) h4
            simp only [List.getElem?_take_of_lt (show i < n by omega)] at this
            exact this
        · rw [List.getElem?_eq_none (by simp; omega), List.getElem?_eq_none (by simp; omega)]
  obtain ⟨r, h1, o', h2, h3, h4⟩ := key (N - 1) le_rfl
  refine ⟨fun i => r (i - c), fun i => h1 _, ?_⟩
  rw [shuffle_eq, h2 _ (fun i _ => by simp)]
  -- all but one element agree, so all do
  have hol : o'.length = N := by rw [h3.length_eq, ho]
  have hd : (o'.drop (N - 1)).Perm (t.drop (N - 1)) := by
    have e : (o'.take (N - 1) ++ o'.drop (N - 1)).Perm (t.take (N - 1) ++ t.drop (N - 1)) := by
      rw [List.take_append_drop, List.take_append_drop]; exact h3.trans hp.symm
    rw [h4] at e
    exact (List.perm_append_left_iff _).mp e
  have hd' : o'.drop (N - 1) = t.drop (N - 1) := by
    have hl : (o'.drop (N - 1)).length ≤ 1 := by rw [List.length_drop]; omega
    match h : o'.drop (N - 1), hl with
    | [], _ => rw [h] at hd; exact (List.nil_perm.mp hd).symm
    | [a], _ => rw [h] at hd; exact (List.singleton_perm.mp hd)
  have : o' = t := by rw [← List.take_append_drop (N - 1) o', h4, hd', List.take_append_drop]
  rw [this]

/-- C86: for larger arrays not every order can come out: with `RAND_MAX = 2^31-1` the last four of 99999 elements never come first. -/
theorem shuffle_large_counterexample (r : Nat) (hr : r ≤ 2147483647) : r / (2147483647 / (99999 - 0) + 1) < 99995 := by
  have : 2147483647 / (99999 - 0) + 1 = 21476 := by norm_num
  rw [this]; omega

/-! Specification of the epochs. -/

/-- The state after some samples: the iterate, the one before, the last gradient, the two moments, the sum of the squared gradients. -/
structure SS (K : Type) where
  x : List K
  y : List K
  w : List K
  m1 : List K
  m2 : List K
  acc : K

/-- Specification: one step of stochastic gradient descent with sample `k` in epoch `e` (counted from 0): plain in the first ten epochs or
without momentum, otherwise Adam with the number of epochs as the time. -/
def sampleSpec (sq : K → K) (o : Sto K) (p : SPar K) (e : Nat) (rate : K) (s : SS K) (k : Nat) : SS K :=
  let w := o.g k s.x
  if p.momentum = false ∨ e < 10 then
    ⟨(List.range p.d).map fun j => s.x.getD j 0 - rate * w.getD j 0, s.x, w, s.m1, s.m2, s.acc + dot p.d s.w s.w⟩
  else
    let m1 := (List.range p.d).map fun j => 9 / 10 * s.m1.getD j 0 + (1 - 9 / 10) * w.getD j 0
    let m2 := (List.range p.d).map fun j => 999 / 1000 * s.m2.getD j 0 + (1 - 999 / 1000) * w.getD j 0 * w.getD j 0
    ⟨(List.range p.d).map fun j => s.x.getD j 0 + -rate * (m1.getD j 0 / (1 - (9 / 10) ^ (e + 1))) /
      (sq (m2.getD j 0 / (1 - (999 / 1000) ^ (e + 1))) + 1 / 10 ^ 8), s.x, w, m1, m2, s.acc + dot p.d s.w s.w⟩

/-- Specification: the epochs with the training sets `Ts` (the latest first), each run through once in its order. -/
def path (sq : K → K) (o : Sto K) (p : SPar K) (s0 : SS K) : List (List Nat) → SS K
  | [] => s0
  | T :: Ts => T.foldl (sampleSpec sq o p Ts.length (p.rate * p.decay ^ Ts.length)) { path sq o p s0 Ts with acc := 0 }

/-- A training set: distinct samples, as many as there should be. -/
def IsTrain (n : Nat) (T : List Nat) : Prop := T.Nodup ∧ T.length = ndTrain n ∧ ∀ k ∈ T, k < n

/-- The vectors have the right length. -/
structure SS.Len (d : Nat) (s : SS K) : Prop where
  x : s.x.length = d
  y : s.y.length = d
  w : s.w.length = d
  m1 : s.m1.length = d
  m2 : s.m2.length = d

/-- The model state matches the specification. -/
def SgEq (s : Sg K) (t : SS K) : Prop := s.next = t.x ∧ s.cur = t.y ∧ s.w = t.w ∧ s.m1 = t.m1 ∧ s.m2 = t.m2 ∧ s.acc = t.acc

theorem sampleSpec_len {sq : K → K} {o : Sto K} {p : SPar K} (ho : ∀ k x, (o.g k x).length = p.d) (e : Nat) (rate : K) {s : SS K} (h : s.Len p.d) (k : Nat) :
    (sampleSpec sq o p e rate s k).Len p.d := by
  simp only [sampleSpec]
  split
  · exact ⟨by simp, h.x, ho _ _, h.m1, h.m2⟩
  · exact ⟨by simp, h.x, ho _ _, by simp, by simp⟩

theorem one_sub_pow_ne {b : K} (h0 : 0 ≤ b) (h1 : b < 1) (t : Nat) : 1 - b ^ (t + 1) ≠ 0 := by
  have : b ^ (t + 1) < 1 := pow_lt_one₀ h0 h1 (by omega)
  exact (sub_pos.mpr this).ne'

theorem sgdPlain_ok {d : Nat} (rate : K) {cur w next : List K} (hc : cur.length = d) (hw : w.length = d) (hn : next.length = d) :
    sgdPlain d rate cur w next = .ok ((List.range d).map fun j => cur.getD j 0 - rate * w.getD j 0) := by
  rw [sgdPlain, forN_fill_all (fun j => cur.getD j 0 - rate * w.getD j 0) hn]
  intro i hi b hb
  rw [rd_getD 0 (by omega), bind_ok, rd_getD 0 (by omega), bind_ok]

/-- New entries before position `i`, old ones from there on. -/
def Upto (d i : Nat) (f : Nat → K) (old l : List K) : Prop :=
  l.length = d ∧ (∀ j < i, l.getD j 0 = f j) ∧ ∀ j, i ≤ j → j < d → l.getD j 0 = old.getD j 0

theorem Upto.set {d i : Nat} {f : Nat → K} {old l : List K} (h : Upto d i f old l) (hi : i < d) {v : K} (hv : v = f i) :
    wr l i v = .ok (l.set i v) ∧ Upto d (i + 1) f old (l.set i v) := by
  refine ⟨wr_ok _ (by rw [h.1]; exact hi), by simp [h.1], ?_, ?_⟩
  · intro j hj
    by_cases e : j = i
    · rw [e, List.getD_eq_getElem?_getD, List.getElem?_set_self (by rw [h.1]; exact hi), hv]; rfl
    · rw [List.getD_eq_getElem?_getD, List.getElem?_set_ne (by omega), ← List.getD_eq_getElem?_getD]
      exact h.2.1 j (by omega)
  · intro j h1 h2
    rw [List.getD_eq_getElem?_getD, List.getElem?_set_ne (by omega), ← List.getD_eq_getElem?_getD]
    exact h.2.2 j (by omega) h2

theorem Upto.eq {d : Nat} {f : Nat → K} {old l : List K} (h : Upto d d f old l) : l = (List.range d).map f := by
  apply List.ext_getElem
  · simp [h.1]
  · intro i h1 h2
    have hi : i < d := by simpa using h2
    have := h.2.1 i hi
    rw [List.getD_eq_getElem?_getD, List.getElem?_eq_getElem h1] at this
    simpa using this

theorem sgdAdam_ok {sq : K → K} (hsq : ∀ v, 0 ≤ sq v) {d : Nat} (rate : K) (t : Nat) {w x m1 m2 : List K} (hw : w.length = d) (hx : x.length = d)
    (h1 : m1.length = d) (h2 : m2.length = d) :
    sgdAdam sq d rate (t + 1) w (x, m1, m2) = .ok
      ((List.range d).map fun j => x.getD j 0 + -rate * ((9 / 10 * m1.getD j 0 + (1 - 9 / 10) * w.getD j 0) / (1 - (9 / 10) ^ (t + 1))) /
        (sq ((999 / 1000 * m2.getD j 0 + (1 - 999 / 1000) * w.getD j 0 * w.getD j 0) / (1 - (999 / 1000) ^ (t + 1))) + 1 / 10 ^ 8),
       (List.range d).map fun j => 9 / 10 * m1.getD j 0 + (1 - 9 / 10) * w.getD j 0,
       (List.range d).map fun j => 999 / 1000 * m2.getD j 0 + (1 - 999 / 1000) * w.getD j 0 * w.getD j 0) := by
  have n1 : (1 - (9 / 10 : K) ^ (t + 1)) ≠ 0 := one_sub_pow_ne (by norm_num) (by norm_num) t
  have n2 : (1 - (999 / 1000 : K) ^ (t + 1)) ≠ 0 := one_sub_pow_ne (by norm_num) (by norm_num) t
  have n3 : ∀ v, sq v + 1 / 10 ^ 8 ≠ 0 := fun v => by
    have := hsq v
    have h0 : (0 : K) < 1 / 10 ^ 8 := by positivity
    linarith
  rw [sgdAdam]
  obtain ⟨st, e1, e2, e3, e4⟩ := forN_spec (n := d) (s := (x, m1, m2))
    (body := fun jj st => (do
      let v ← rd w jj
      let a ← rd st.2.1 jj
      let b ← rd st.2.2 jj
      let a := 9 / 10 * a + (1 - 9 / 10) * v
      let b := 999 / 1000 * b + (1 - 999 / 1000) * v * v
      let m1 ← wr st.2.1 jj a
      let m2 ← wr st.2.2 jj b
      let ca ← dv a (1 - (9 / 10) ^ (t + 1))
      let cb ← dv b (1 - (999 / 1000) ^ (t + 1))
      let q ← dv (-rate * ca) (sq cb + 1 / 10 ^ 8)
      let x ← rd st.1 jj
      let next ← wr st.1 jj (x + q)
      pure (next, m1, m2) : C (List K × List K × List K)))
    (I := fun i st => Upto d i (fun j => x.getD j 0 + -rate * ((9 / 10 * m1.getD j 0 + (1 - 9 / 10) * w.getD j 0) / (1 - (9 / 10) ^ (t + 1))) /
        (sq ((999 / 1000 * m2.getD j 0 + (1 - 999 / 1000) * w.getD j 0 * w.getD j 0) / (1 - (999 / 1000) ^ (t + 1))) + 1 / 10 ^ 8)) x st.1 ∧
      Upto d i (fun j => 9 / 10 * m1.getD j 0 + (1 - 9 / 10) * w.getD j 0) m1 st.2.1 ∧
      Upto d i (fun j => 999 / 1000 * m2.getD j 0 + (1 - 999 / 1000) * w.getD j 0 * w.getD j 0) m2 st.2.2)
    ⟨⟨hx, fun j hj => by omega, fun _ _ _ => rfl⟩, ⟨h1, fun j hj => by omega, fun _ _ _ => rfl⟩, ⟨h2, fun j hj => by omega, fun _ _ _ => rfl⟩⟩ (by
      intro i hi st ⟨u1, u2, u3⟩
      have v1 := u1.set hi rfl
      have v2 := u2.set hi rfl
      have v3 := u3.set hi rfl
      rw [rd_getD 0 (by omega), bind_ok, rd_getD 0 (by rw [u2.1]; exact hi), bind_ok, rd_getD 0 (by rw [u3.1]; exact hi), bind_ok,
        u2.2.2 i le_rfl hi, u3.2.2 i le_rfl hi]
      dsimp only
      rw [v2.1, bind_ok, v3.1, bind_ok, dv_ok n1, bind_ok, dv_ok n2, bind_ok, dv_ok (n3 _), bind_ok, rd_getD 0 (by rw [u1.1]; exact hi), bind_ok,
        u1.2.2 i le_rfl hi, v1.1, bind_ok]
      exact ⟨_, rfl, v1.2, v2.2, v3.2⟩)
  rw [e1]
  obtain ⟨a, b, c⟩ := st
  simp only at e2 e3 e4
  rw [e2.eq, e3.eq, e4.eq]

theorem sgdSample_ok {sq : K → K} (hsq : ∀ v, 0 ≤ sq v) {o : Sto K} {p : SPar K} (ho : ∀ k x, (o.g k x).length = p.d) (e : Nat) (rate : K) {order : List Nat}
    {ii : Nat} (hi : ii < order.length) {s : Sg K} {t : SS K} (hst : SgEq s t) (hl : t.Len p.d) :
    ∃ s', sgdSample sq o p e rate order ii s = .ok s' ∧ SgEq s' (sampleSpec sq o p e rate t (order.getD ii 0)) ∧ s'.nev = s.nev + 1 ∧ s'.ngv = s.ngv + 1 ∧
      s'.log = order.getD ii 0 :: s.log := by
  obtain ⟨next, cur, w, m1, m2, acc, nev, ngv, log⟩ := s
  obtain ⟨x, y, w', m1', m2', acc'⟩ := t
  obtain ⟨rfl, rfl, rfl, rfl, rfl, rfl⟩ := hst
  obtain ⟨l1, l2, l3, l4, l5⟩ := hl
  simp only at l1 l2 l3 l4 l5 ⊢
  rw [sgdSample]
  simp only
  rw [dcopy_ok l1 l2, bind_ok, dot_ok l3 l3, bind_ok, rd_getD 0 hi, bind_ok, sgdMove]
  simp only [sampleSpec]
  by_cases hc : p.momentum = false ∨ e < 10
  · rw [if_pos hc, if_pos hc, sgdPlain_ok rate l1 (ho _ _) l1, bind_ok]
    exact ⟨_, rfl, ⟨rfl, rfl, rfl, rfl, rfl, rfl⟩, rfl, rfl, rfl⟩
  · rw [if_neg hc, if_neg hc, sgdAdam_ok hsq rate e (ho _ _) l1 l4 l5, bind_ok]
    refine ⟨_, rfl, ⟨?_, rfl, rfl, rfl, rfl, rfl⟩, rfl, rfl, rfl⟩
    apply List.map_congr_left
    intro j hj
    have : j < p.d := List.mem_range.mp hj
    simp [this]

theorem foldl_len {sq : K → K} {o : Sto K} {p : SPar K} (ho : ∀ k x, (o.g k x).length = p.d) (e : Nat) (rate : K) :
    ∀ (T : List Nat) {s : SS K}, s.Len p.d → (T.foldl (sampleSpec sq o p e rate) s).Len p.d
  | [], _, h => h
  | k :: T, _, h => foldl_len ho e rate T (sampleSpec_len ho e rate h k)

theorem path_len {sq : K → K} {o : Sto K} {p : SPar K} (ho : ∀ k x, (o.g k x).length = p.d) {s0 : SS K} (h0 : s0.Len p.d) :
    ∀ Ts, (path sq o p s0 Ts).Len p.d
  | [] => h0
  | T :: Ts => foldl_len ho _ _ T (by have := path_len (sq := sq) ho h0 Ts; exact ⟨this.x, this.y, this.w, this.m1, this.m2⟩)

/-- The samples of one epoch. -/
theorem epoch_ok {sq : K → K} (hsq : ∀ v, 0 ≤ sq v) {o : Sto K} {p : SPar K} (ho : ∀ k x, (o.g k x).length = p.d) (e : Nat) (rate : K) {order : List Nat}
    {n : Nat} (hn : n ≤ order.length) {s : Sg K} {t : SS K} (hst : SgEq s t) (hl : t.Len p.d) :
    ∃ s', forN n (fun ii s => sgdSample sq o p e rate order ii s) s = .ok s' ∧
      SgEq s' ((order.take n).foldl (sampleSpec sq o p e rate) t) ∧ s'.nev = s.nev + n ∧ s'.ngv = s.ngv + n ∧
      s'.log = (order.take n).reverse ++ s.log := by
  induction n with
  | zero => exact ⟨s, rfl, hst, rfl, rfl, rfl⟩
  | succ n ih =>
    obtain ⟨s', h1, h2, h3, h4, h5⟩ := ih (by omega)
    obtain ⟨s'', g1, g2, g3, g4, g5⟩ := sgdSample_ok hsq ho e rate (order := order) (ii := n) (by omega) h2 (foldl_len ho e rate _ hl)
    have ht : order.take (n + 1) = order.take n ++ [order.getD n 0] := by
      rw [List.take_succ, List.getElem?_eq_getElem (by omega)]
      simp [show n < order.length by omega]
    refine ⟨s'', by rw [forN_succ, h1]; exact g1, ?_, by omega, by omega, ?_⟩
    · rw [ht, List.foldl_append]; exact g2
    · rw [ht, g5, h5]; simp

/-- The mean of the objective over the samples `T`. -/
def meanCost (o : Sto K) (T : List Nat) (x : List K) : K := (T.map fun k => o.f k x).sum / (T.length : K)

theorem list_sum_range (n : Nat) (f : Nat → K) : ((List.range n).map f).sum = ∑ i ∈ range n, f i := by
  induction n with
  | zero => rfl
  | succ n ih => rw [List.range_succ, List.map_append, List.sum_append, ih, sum_range_succ]; simp

theorem ndTrain_le {n : Nat} (h : 2 ≤ n) : 2 ≤ ndTrain n ∧ ndTrain n ≤ n := by
  rw [ndTrain]; omega

theorem sgdTerm_ok {o : Sto K} {d n N : Nat} {x y : List K} {order : List Nat} (hx : x.length = d) (hy : y.length = d) (ho : order.length = N) (h0 : 0 < n)
    (hn : n ≤ N) (nev : Nat) : sgdTerm o d x y n N order nev = .ok (dist2 d x y, meanCost o (order.take n) x, nev + N) := by
  rw [sgdTerm, forN_sum (fun i => (x.getD i 0 - y.getD i 0) * (x.getD i 0 - y.getD i 0)) (by
    intro i hi s
    rw [rd_getD 0 (by omega), bind_ok, rd_getD 0 (by omega), bind_ok]; rfl), bind_ok,
    forN_sum (fun i => o.f (order.getD i 0) x) (by
    intro i hi s
    rw [rd_getD 0 (by omega), bind_ok]; rfl), bind_ok]
  obtain ⟨m, e1, e2⟩ := forR_spec (a := n) (b := N) (I := fun i m => m = nev + i) (s := nev + n)
    (body := fun ii m => (do
      let _ ← rd order ii
      pure (m + 1) : C Nat)) hn rfl (by
      intro i h1 h2 m hm
      rw [rd_getD 0 (by omega), bind_ok]
      exact ⟨_, rfl, by omega⟩)
  have hnz : (n : K) ≠ 0 := by exact_mod_cast (show n ≠ 0 by omega)
  rw [e1, bind_ok, dv_ok hnz, bind_ok, e2, pure_eq_ok]
  congr 2
  · rw [dist2, zero_add]
    exact sum_congr rfl fun i _ => by ring
  · congr 1
    have hl : (order.take n).length = n := by simp; omega
    rw [meanCost, hl]
    congr 1
    have : (order.take n).map (fun k => o.f k x) = (List.range n).map fun i => o.f (order.getD i 0) x := by
      apply List.ext_getElem
      · simp; omega
      · intro i h1 h2
        have hi : i < n := by simpa using h2
        simp [show i < order.length by omega]
    rw [this, zero_add, list_sum_range]

/-- Specification: the training cost after the epochs `Ts` (the latest first). -/
def cost (sq : K → K) (o : Sto K) (p : SPar K) (s0 : SS K) : List (List Nat) → K
  | [] => 0
  | T :: Ts => meanCost o T (path sq o p s0 (T :: Ts)).x

/-- Specification of the return code after the epochs `Ts`. -/
def SCodeOk (sq : K → K) (o : Sto K) (p : SPar K) (s0 : SS K) (Ts : List (List Nat)) : Ret → Prop
  | .gtol => 7 ≤ Ts.length ∧ (path sq o p s0 Ts).acc / (ndTrain p.ndata : K) < p.gtol
  | .ftol => 7 ≤ Ts.length ∧
      ((1 / 10 ^ 10 < cost sq o p s0 Ts.tail ∧ cost sq o p s0 Ts ≠ 0 ∧
        |cost sq o p s0 Ts - cost sq o p s0 Ts.tail| / |cost sq o p s0 Ts| < p.relftol) ∨
       (cost sq o p s0 Ts.tail ≤ 1 / 10 ^ 10 ∧ |cost sq o p s0 Ts - cost sq o p s0 Ts.tail| < p.relftol))
  | .xtol => 7 ≤ Ts.length ∧ dist2 p.d (path sq o p s0 Ts).x (path sq o p s0 Ts).y < p.absxtol
  | .success => p.maxiter = 0 ∨ (7 ≤ Ts.length ∧ p.rate * p.decay ^ Ts.length < 1 / 10 ^ 20)
  | .maxiter => Ts.length = p.maxiter ∧ 1 ≤ p.maxiter

/-- Specification of the result. -/
structure SEnd (sq : K → K) (o : Sto K) (p : SPar K) (s0 : SS K) (r : SRes K) (Ts : List (List Nat)) : Prop where
  trains : ∀ T ∈ Ts, IsTrain p.ndata T
  x : r.x = (path sq o p s0 Ts).x
  niters : r.niters = Ts.length
  limit : Ts.length ≤ p.maxiter
  val : 1 ≤ p.maxiter → 1 ≤ Ts.length ∧ r.fval = cost sq o p s0 Ts
  ngv : r.ngv = ndTrain p.ndata * Ts.length
  nev : r.nev = (ndTrain p.ndata + p.ndata) * Ts.length
  log : r.log = (Ts.map List.reverse).flatten
  code : SCodeOk sq o p s0 Ts r.ret

theorem sgdTest_ok {sq : K → K} {o : Sto K} {p : SPar K} {s0 : SS K} {T : List Nat} {Ts : List (List Nat)} {rate : K} {c : Ret}
    (hr : rate = p.rate * p.decay ^ (T :: Ts).length)
    (h : sgdTest p Ts.length ((path sq o p s0 (T :: Ts)).acc / (ndTrain p.ndata : K)) (sgdDtrain (cost sq o p s0 (T :: Ts)) (cost sq o p s0 Ts))
      (dist2 p.d (path sq o p s0 (T :: Ts)).x (path sq o p s0 (T :: Ts)).y) rate = some c) : SCodeOk sq o p s0 (T :: Ts) c := by
  rw [sgdTest] at h
  split at h
  · next hi =>
    have h7 : 7 ≤ (T :: Ts).length := by simp only [List.length_cons]; omega
    split at h
    · next hg => injection h with h; subst h; exact ⟨h7, hg⟩
    · split at h
      · next hg =>
        injection h with h
        subst h
        refine ⟨h7, ?_⟩
        obtain ⟨v, e, hv⟩ := hg
        rw [sgdDtrain] at e
        split at e
        · next ho =>
          split at e
          · simp at e
          · next hne =>
            injection e with e
            subst e
            rw [abs_div, abs_abs] at hv
            exact Or.inl ⟨ho, hne, hv⟩
        · next ho =>
          injection e with e
          subst e
          rw [abs_abs] at hv
          exact Or.inr ⟨not_lt.mp ho, hv⟩
      · split at h
        · next hg =>
          injection h with h
          subst h
          exact ⟨h7, lt_of_le_of_lt (le_abs_self _) hg⟩
        · split at h
          · next hg =>
            injection h with h
            subst h
            rw [hr] at hg
            exact Or.inr ⟨h7, hg⟩
          · simp at h
  · simp at h

theorem sgdLoop_spec {sq : K → K} (hsq : ∀ v, 0 ≤ sq v) {rmax : Nat} {rnd : Nat → Nat} (hr : ∀ i, rnd i ≤ rmax) {o : Sto K} {p : SPar K}
    (ho : ∀ k x, (o.g k x).length = p.d) (h2 : 2 ≤ p.ndata) {s0 : SS K} (h0 : s0.Len p.d) :
    ∀ left Ts rate old cnt order s train fval, rate = p.rate * p.decay ^ Ts.length → old = cost sq o p s0 Ts → order.Perm (List.range p.ndata) →
    (∀ T ∈ Ts, IsTrain p.ndata T) → SgEq { s with acc := (path sq o p s0 Ts).acc } (path sq o p s0 Ts) → s.ngv = ndTrain p.ndata * Ts.length →
    s.nev = (ndTrain p.ndata + p.ndata) * Ts.length → s.log = (Ts.map List.reverse).flatten → (1 ≤ Ts.length → fval = cost sq o p s0 Ts) →
    Ts.length + left = p.maxiter →
    ∃ r Ts', sgdLoop sq rmax rnd o p left Ts.length rate old cnt order s train fval = .ok r ∧ SEnd sq o p s0 r Ts' := by
  intro left
  obtain ⟨n2, nN⟩ := ndTrain_le h2
  have hnz : (ndTrain p.ndata : K) ≠ 0 := by exact_mod_cast (show ndTrain p.ndata ≠ 0 by omega)
  induction left with
  | zero =>
    intro Ts rate old cnt order s train fval hrate hold hperm hT hst hngv hnev hlog hfv hleft
    rw [sgdLoop]
    refine ⟨_, Ts, rfl, hT, hst.1, rfl, by omega, fun h => ⟨by omega, hfv (by omega)⟩, hngv, hnev, hlog, ?_⟩
    dsimp only
    split
    · next hm => exact Or.inl hm
    · exact ⟨by omega, by omega⟩
  | succ left ih =>
    intro Ts rate old cnt order s train fval hrate hold hperm hT hst hngv hnev hlog hfv hleft
    have hol : order.length = p.ndata := by rw [hperm.length_eq]; simp
    obtain ⟨o', e1, e2⟩ := shuffle_perm hr (N := p.ndata) (c := cnt) hol
    have ho' : o'.length = p.ndata := by rw [e2.length_eq, hol]
    have hperm' := e2.trans hperm
    rw [sgdLoop, e1, bind_ok]
    have hpl := path_len (sq := sq) ho h0 Ts
    have hpl' : ({ path sq o p s0 Ts with acc := 0 } : SS K).Len p.d := ⟨hpl.x, hpl.y, hpl.w, hpl.m1, hpl.m2⟩
    obtain ⟨s', f1, f2, f3, f4, f5⟩ := epoch_ok hsq ho Ts.length rate (order := o') (n := ndTrain p.ndata) (by omega)
      (s := { s with acc := 0 }) (t := { path sq o p s0 Ts with acc := 0 }) ⟨hst.1, hst.2.1, hst.2.2.1, hst.2.2.2.1, hst.2.2.2.2.1, rfl⟩ hpl'
    have hp' : (o'.take (ndTrain p.ndata)).foldl (sampleSpec sq o p Ts.length rate) { path sq o p s0 Ts with acc := 0 } =
        path sq o p s0 (o'.take (ndTrain p.ndata) :: Ts) := by rw [path, hrate]
    rw [hp'] at f2
    have hT' : ∀ T ∈ o'.take (ndTrain p.ndata) :: Ts, IsTrain p.ndata T := by
      intro T hTm
      rcases List.mem_cons.mp hTm with rfl | hTm
      · refine ⟨((hperm'.nodup_iff.mpr List.nodup_range).sublist (List.take_sublist _ _)), by simp; omega, fun k hk => ?_⟩
        have := hperm'.mem_iff.mp (List.mem_of_mem_take hk)
        exact List.mem_range.mp this
      · exact hT T hTm
    obtain ⟨g1, g2, g3, g4, g5, g6⟩ := f2
    have hpn := path_len (sq := sq) ho h0 (o'.take (ndTrain p.ndata) :: Ts)
    rw [f1, bind_ok, sgdTerm_ok (by rw [g1]; exact hpn.x) (by rw [g2]; exact hpn.y) ho' (by omega) nN, bind_ok, g6, dv_ok hnz, bind_ok]
    have hcost : meanCost o (o'.take (ndTrain p.ndata)) s'.next = cost sq o p s0 (o'.take (ndTrain p.ndata) :: Ts) := by rw [cost, g1]
    simp only [hcost, g1, g2]
    have hngv' : s'.ngv = ndTrain p.ndata * (Ts.length + 1) := by rw [f4]; simp only; rw [hngv]; ring
    have hnev' : s'.nev + p.ndata = (ndTrain p.ndata + p.ndata) * (Ts.length + 1) := by rw [f3]; simp only; rw [hnev]; ring
    have hlog' : s'.log = ((o'.take (ndTrain p.ndata) :: Ts).map List.reverse).flatten := by rw [f5]; simp only; rw [hlog]; simp
    split
    · next c hc =>
      refine ⟨_, o'.take (ndTrain p.ndata) :: Ts, rfl, hT', rfl, by simp, by simp only [List.length_cons]; omega, fun _ => ⟨by simp, rfl⟩, ?_, ?_, hlog', ?_⟩
      · simpa using hngv'
      · simpa using hnev'
      · rw [hold] at hc
        exact sgdTest_ok (by rw [List.length_cons, pow_succ, hrate, mul_assoc]) hc
    · refine ih (o'.take (ndTrain p.ndata) :: Ts) _ _ _ _ _ _ _ (by rw [List.length_cons, pow_succ, hrate, mul_assoc]) rfl hperm' hT'
        ⟨rfl, rfl, g3, g4, g5, rfl⟩ (by simpa using hngv') (by simpa using hnev') hlog' (fun _ => rfl) (by simp only [List.length_cons]; omega)

/-- C86: stochastic gradient descent always returns (two or more samples), whatever `rand()` gives. The point is the result of running, epoch
by epoch, once through a set of distinct samples with one gradient step each; the value is the mean cost over the last such set at that point;
the epochs, evaluations and gradients are counted exactly and the limit on the epochs is kept; the return code is true. -/
theorem optSgd_spec {sq : K → K} (hsq : ∀ v, 0 ≤ sq v) {rmax : Nat} {rnd : Nat → Nat} (hr : ∀ i, rnd i ≤ rmax) {o : Sto K} {p : SPar K}
    (ho : ∀ k x, (o.g k x).length = p.d) (h2 : 2 ≤ p.ndata) {x w : List K} (hx : x.length = p.d) (hw : w.length = p.d) (fval : K) :
    ∃ r Ts, optSgd sq rmax rnd o p x w fval = .ok r ∧ SEnd sq o p ⟨x, x, w, List.replicate p.d 0, List.replicate p.d 0, 0⟩ r Ts := by
  rw [optSgd, if_neg (by omega)]
  obtain ⟨o', e1, e2⟩ := shuffle_perm hr (N := p.ndata) (c := 0) (o := List.range p.ndata) (by simp)
  rw [e1, bind_ok]
  exact sgdLoop_spec hsq hr ho h2 ⟨hx, hx, hw, by simp, by simp⟩ p.maxiter [] p.rate 0 _ o' _ _ _ (by simp) rfl e2 (by simp)
    ⟨rfl, rfl, rfl, rfl, rfl, rfl⟩ rfl rfl rfl (by simp) (by simp)

/-- C86: without momentum an epoch is the textbook recursion: for each sample subtract the learning rate times its gradient. -/
theorem path_plain (sq : K → K) (o : Sto K) {p : SPar K} (hm : p.momentum = false) (s0 : SS K) (T : List Nat) (Ts : List (List Nat)) :
    (path sq o p s0 (T :: Ts)).x = T.foldl (fun x k => (List.range p.d).map fun j =>
      x.getD j 0 - p.rate * p.decay ^ Ts.length * (o.g k x).getD j 0) (path sq o p s0 Ts).x := by
  rw [path]
  have : ∀ (T : List Nat) (s : SS K), (T.foldl (sampleSpec sq o p Ts.length (p.rate * p.decay ^ Ts.length)) s).x =
      T.foldl (fun x k => (List.range p.d).map fun j => x.getD j 0 - p.rate * p.decay ^ Ts.length * (o.g k x).getD j 0) s.x := by
    intro T
    induction T with
    | nil => intro s; rfl
    | cons k T ih =>
      intro s
      rw [List.foldl_cons, List.foldl_cons, ih]
      congr 1
      simp [sampleSpec, hm]
  exact this T _

/-- C86: up to five samples no validation data are kept back, and the validation error that is printed is 0/0. -/
theorem sgd_validation_actual (n : Nat) : n - ndTrain n = 0 ↔ n ≤ 5 := by rw [ndTrain]; omega

/-- Two samples of `(x-k)^2`. -/
def exSto : Sto ℚ := ⟨fun k x => (x.getD 0 0 - k) ^ 2, fun k x => [2 * (x.getD 0 0 - k)]⟩

/-- C86: an iteration limit of zero is reported as success and leaves the function value unset (`maxiter-1` wraps around). -/
theorem sgd_zero_actual : optSgd (fun v => |v|) 7 (fun _ => 0) exSto ⟨1, 2, 0, 0, 0, 0, 1 / 4, 1, false⟩ [3] [0] 77 =
    .ok ⟨[3], 77, .success, 0, 0, 0, [], []⟩ := by decide +kernel

/-- C86: fewer than two samples end the program. -/
theorem sgd_few_actual (sq : K → K) (rmax : Nat) (rnd : Nat → Nat) (o : Sto K) {p : SPar K} (h : p.ndata < 2) (x w : List K) (fval : K) :
    optSgd sq rmax rnd o p x w fval = .error .exit := by rw [optSgd, if_pos h]

/-- The hypotheses of `optSgd_spec`: one epoch from 3, samples in the order 1, 0. -/
example : (∀ v : ℚ, 0 ≤ |v|) ∧ (∀ i : Nat, (fun i => if i = 0 then 7 else 0 : Nat → Nat) i ≤ 7) ∧ (∀ k x, (exSto.g k x).length = 1) ∧
    optSgd (fun v => |v|) 7 (fun i => if i = 0 then 7 else 0) exSto ⟨1, 2, 1, 0, 0, 0, 1 / 4, 1, false⟩ [3] [0] 77 =
      .ok ⟨[1], 1 / 2, .maxiter, 1, 4, 2, [0, 1], [1, 0]⟩ :=
  ⟨fun v => abs_nonneg v, fun i => by dsimp only; split <;> omega, fun _ _ => rfl, by decide +kernel⟩

end C3.Opt

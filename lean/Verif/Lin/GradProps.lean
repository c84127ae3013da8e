/- C58 (parameter gradient), C59 (derivative evaluation), C60 (derivative expansion) of linear elements. -/
import Verif.Lin.AlgProps
import Mathlib.Analysis.Calculus.Deriv.Mul
import Mathlib.Algebra.BigOperators.Ring.Finset

set_option linter.unusedSectionVars false

namespace C3.Lin
open Finset

section
variable {K : Type} [Field K] [LinearOrder K] [IsStrictOrderedRing K]

/-- The four writes of one gradient row. -/
theorem row_ok {num i off : Nat} (t : K) {grad : List K} (hi : i + 1 < num) (hg : off + num ≤ grad.length) :
    ∃ g1 g2 g3 g4, forN i (fun jj g => wr g (off + jj) 0) grad = .ok g1 ∧
      forR (i + 2) num (fun jj g => wr g (off + jj) 0) g1 = .ok g2 ∧ wr g2 (off + i) t = .ok g3 ∧
      wr g3 (off + i + 1) (1 - t) = .ok g4 ∧ g4.length = grad.length ∧
      (∀ j < num, g4[off + j]? = some (if j = i then t else if j = i + 1 then 1 - t else 0)) ∧
      ∀ k, (k < off ∨ off + num ≤ k) → g4[k]? = grad[k]? := by
  obtain ⟨g1, h1, l1, w1, u1⟩ := forN_scatter (n := i) (a := grad) (body := fun jj g => wr g (off + jj) 0)
    (fun jj => off + jj) (fun _ => 0) (fun j hj => by omega) (fun _ _ _ _ h => by omega) (fun _ _ _ _ _ _ => rfl)
  obtain ⟨g2, h2, l2, w2, u2⟩ := forR_spec (a := i + 2) (b := num) (s := g1) (body := fun jj g => wr g (off + jj) 0)
    (I := fun m (g : List K) => g.length = grad.length ∧ (∀ j, i + 2 ≤ j → j < m → g[off + j]? = some 0) ∧
      ∀ k, (k < off + (i + 2) ∨ off + m ≤ k) → g[k]? = g1[k]?)
    (by omega) ⟨l1, fun _ _ _ => by omega, fun _ _ => rfl⟩ (by
      rintro m hm1 hm2 g ⟨a1, a2, a3⟩
      refine ⟨g.set (off + m) 0, wr_ok _ (by omega), by simp [a1], ?_, ?_⟩
      · intro j hj1 hj2
        by_cases e : j = m
        · subst e; rw [List.getElem?_set_self (by omega)]
        · rw [List.getElem?_set_ne (by omega)]; exact a2 j hj1 (by omega)
      · intro k hk
        rw [List.getElem?_set_ne (by omega)]; exact a3 k (by omega))
  refine ⟨g1, g2, g2.set (off + i) t, (g2.set (off + i) t).set (off + i + 1) (1 - t), h1, h2, wr_ok _ (by omega),
    wr_ok _ (by simp; omega), by simp [l2], ?_, ?_⟩
  · intro j hj
    by_cases e1 : j = i
    · subst e1
      rw [if_pos rfl, List.getElem?_set_ne (by omega), List.getElem?_set_self (by omega)]
    · rw [if_neg e1]
      by_cases e2 : j = i + 1
      · subst e2
        rw [if_pos rfl, show off + (i + 1) = off + i + 1 from rfl, List.getElem?_set_self (by simp; omega)]
      · rw [if_neg e2, List.getElem?_set_ne (by omega), List.getElem?_set_ne (by omega)]
        by_cases e3 : j < i
        · rw [u2 _ (by omega)]; exact w1 j e3
        · exact w2 j (by omega) hj
  · intro k hk
    rw [List.getElem?_set_ne (by omega), List.getElem?_set_ne (by omega), u2 k (by omega)]
    exact u1 k (fun j hj => by omega)

theorem weights_sum {num i : Nat} (t : K) (c : Nat → K) (hi : i + 1 < num) :
    ∑ j ∈ range num, (if j = i then t else if j = i + 1 then 1 - t else 0) * c j = c i * t + c (i + 1) * (1 - t) := by
  have e : ∀ j, (if j = i then t else if j = i + 1 then 1 - t else 0) * c j
      = (if j = i then t * c i else 0) + (if j = i + 1 then (1 - t) * c (i + 1) else 0) := by
    intro j
    by_cases h1 : j = i
    · subst h1; simp
    · by_cases h2 : j = i + 1
      · subst h2; simp
      · simp [h1, h2]
  rw [sum_congr rfl fun j _ => e j, sum_add_distrib, sum_ite_eq' (range num) i, sum_ite_eq' (range num) (i + 1),
    if_pos (mem_range.2 (by omega)), if_pos (mem_range.2 hi)]
  ring

/-- Inside the range, at a node or away from all nodes, the interval found gives evaluation for every choice of coefficients. -/
theorem interval_eval {tol x : K} {f : LE K} (hf : f.WF) (ht : 0 ≤ tol) (hl : f.nd 0 ≤ x) (hh : x ≤ f.nd (f.num - 1))
    (hx : ∀ k < f.num, |x - f.nd k| ≤ tol → x = f.nd k) :
    ∃ i, findInterval tol f x = .ok i ∧ i + 1 < f.num ∧ f.nd (i + 1) - f.nd i ≠ 0 ∧
      ∀ c : List K, c.length = f.num → eval tol ⟨f.num, f.nodes, c⟩ x =
        .ok (c.getD i 0 * ((f.nd (i + 1) - x) / (f.nd (i + 1) - f.nd i)) +
          c.getD (i + 1) 0 * (1 - (f.nd (i + 1) - x) / (f.nd (i + 1) - f.nd i))) := by
  obtain ⟨i, h1, h2, h3⟩ := findInterval_ok (tol := tol) hf hl hh
  have hd : f.nd (i + 1) - f.nd i ≠ 0 := (sub_pos.2 (hf.inc i h2)).ne'
  refine ⟨i, h1, h2, hd, fun c hc => ?_⟩
  have hb : f.nd i ≤ x ∧ x ≤ f.nd (i + 1) := by
    rcases h3 with h3 | h3
    · exact h3
    · have := hx i (by omega) h3
      exact ⟨this.ge, this ▸ (hf.inc i h2).le⟩
  have e := eval_value_partial (f := ⟨f.num, f.nodes, c⟩) (WF.swap hf hc) ht hx
  rw [e, pl_seg (f := ⟨f.num, f.nodes, c⟩) (WF.swap hf hc) h2 hb.1 hb.2]
  congr 1
  show c.getD i 0 + (c.getD (i + 1) 0 - c.getD i 0) / (f.nd (i + 1) - f.nd i) * (x - f.nd i) = _
  field_simp
  ring

/-- **C58** Value and gradient with respect to the parameters: inside the node range, the value is the evaluation, and for
every vector of coefficients the evaluation is the inner product of the gradient with that vector (so the gradient entry `j` is
the derivative with respect to coefficient `j`); nothing else of the array is written. Missing: points outside the range, where
`paramGrad2_counterexample` refutes it, and points within the tolerance of a node they differ from. -/
theorem paramGrad2_value_partial {tol x : K} {f : LE K} (hf : f.WF) (ht : 0 ≤ tol) (hl : f.nd 0 ≤ x)
    (hh : x ≤ f.nd (f.num - 1)) (hx : ∀ k < f.num, |x - f.nd k| ≤ tol → x = f.nd k) {grad : List K}
    (hg : f.num ≤ grad.length) :
    ∃ v g, paramGrad2 tol f x grad = .ok (v, g) ∧ eval tol f x = .ok v ∧ g.length = grad.length ∧
      (∀ c : List K, c.length = f.num → eval tol ⟨f.num, f.nodes, c⟩ x = .ok (∑ j ∈ range f.num, g.getD j 0 * c.getD j 0)) ∧
      ∀ k, f.num ≤ k → g[k]? = grad[k]? := by
  obtain ⟨i, h1, h2, hd, h3⟩ := interval_eval hf ht hl hh hx
  obtain ⟨g1, g2, g3, g4, e1, e2, e3, e4, l4, w4, u4⟩ :=
    row_ok (off := 0) ((f.nd (i + 1) - x) / (f.nd (i + 1) - f.nd i)) h2 (by rw [Nat.zero_add]; exact hg)
  simp only [Nat.zero_add] at e1 e2 e3 e4 w4 u4
  refine ⟨_, g4, ?_, h3 f.coeff hf.hc, l4, ?_, fun k hk => u4 k (.inr hk)⟩
  · rw [paramGrad2, h1, bind_ok, e1, bind_ok, e2, bind_ok, LE.rd_nd hf h2, bind_ok, LE.rd_nd hf (by omega), bind_ok,
      dv_ok hd, bind_ok, e3, bind_ok, e4, bind_ok, LE.rd_cf hf (by omega), bind_ok, LE.rd_cf hf h2, bind_ok, pure_eq_ok]
    rfl
  · intro c hc
    rw [h3 c hc]
    congr 1
    rw [← weights_sum _ (fun j => c.getD j 0) h2]
    refine sum_congr rfl fun j hj => ?_
    rw [List.getD_eq_getElem?_getD (l := g4), w4 j (mem_range.1 hj)]
    rfl

/-- **C58** The batched gradient: row `ii` of the array is the gradient at point `ii`. Same restrictions. -/
theorem paramGrad_value_partial {tol : K} {f : LE K} (hf : f.WF) (ht : 0 ≤ tol) {nx : Nat} {x : List K} (hxl : nx ≤ x.length)
    (hr : ∀ ii < nx, f.nd 0 ≤ x.getD ii 0 ∧ x.getD ii 0 ≤ f.nd (f.num - 1))
    (hx : ∀ ii < nx, ∀ k < f.num, |x.getD ii 0 - f.nd k| ≤ tol → x.getD ii 0 = f.nd k) {grad : List K}
    (hg : nx * f.num ≤ grad.length) :
    ∃ g, paramGrad tol f nx x grad = .ok g ∧ g.length = grad.length ∧
      (∀ ii < nx, ∀ c : List K, c.length = f.num →
        eval tol ⟨f.num, f.nodes, c⟩ (x.getD ii 0) = .ok (∑ j ∈ range f.num, g.getD (ii * f.num + j) 0 * c.getD j 0)) ∧
      ∀ k, nx * f.num ≤ k → g[k]? = grad[k]? := by
  obtain ⟨g, h1, h2, h3, h4⟩ := forN_spec (n := nx) (s := grad)
    (body := fun ii grad => do
      let xi ← rd x ii
      paramGradAt tol f xi ii grad)
    (I := fun m (g : List K) => g.length = grad.length ∧
      (∀ ii < m, ∀ c : List K, c.length = f.num →
        eval tol ⟨f.num, f.nodes, c⟩ (x.getD ii 0) = .ok (∑ j ∈ range f.num, g.getD (ii * f.num + j) 0 * c.getD j 0)) ∧
      ∀ k, m * f.num ≤ k → g[k]? = grad[k]?)
    ⟨rfl, fun _ h => by omega, fun _ _ => rfl⟩ (by
      rintro m hm g ⟨a1, a2, a3⟩
      obtain ⟨i, p1, p2, hd, p3⟩ := interval_eval hf ht (hr m hm).1 (hr m hm).2 (hx m hm)
      have hml : m * f.num + f.num ≤ nx * f.num := by
        calc m * f.num + f.num = (m + 1) * f.num := by ring
          _ ≤ _ := Nat.mul_le_mul_right _ hm
      obtain ⟨g1, g2, g3, g4, e1, e2, e3, e4, l4, w4, u4⟩ :=
        row_ok (off := m * f.num) (grad := g) ((f.nd (i + 1) - x.getD m 0) / (f.nd (i + 1) - f.nd i)) p2 (by omega)
      refine ⟨g4, ?_, by omega, ?_, ?_⟩
      · rw [rd_getD 0 (by omega), bind_ok, paramGradAt, p1, bind_ok, e1, bind_ok, e2, bind_ok, LE.rd_nd hf p2, bind_ok,
          LE.rd_nd hf (by omega), bind_ok, dv_ok hd, bind_ok, e3, bind_ok, e4]
      · intro ii hii c hc
        by_cases e : ii = m
        · subst e
          rw [p3 c hc]
          congr 1
          rw [← weights_sum _ (fun j => c.getD j 0) p2]
          refine sum_congr rfl fun j hj => ?_
          rw [List.getD_eq_getElem?_getD (l := g4), w4 j (mem_range.1 hj)]
          rfl
        · rw [a2 ii (by omega) c hc]
          congr 1
          refine sum_congr rfl fun j hj => ?_
          have : ii * f.num + j < m * f.num := by
            calc ii * f.num + j < ii * f.num + f.num := Nat.add_lt_add_left (mem_range.1 hj) _
              _ = (ii + 1) * f.num := by ring
              _ ≤ _ := Nat.mul_le_mul_right _ (by omega)
          rw [List.getD_eq_getElem?_getD (l := g4), List.getD_eq_getElem?_getD (l := g), u4 _ (.inl this)]
      · intro k hk
        have : m * f.num + f.num ≤ k := by
          calc m * f.num + f.num = (m + 1) * f.num := by ring
            _ ≤ k := hk
        rw [u4 k (.inr this)]
        exact a3 k (by omega))
  exact ⟨g, h1, h2, h3, h4⟩

/-- **C58** Outside the node range the routine extrapolates, although evaluation is zero there. -/
theorem paramGrad2_counterexample :
    paramGrad2 (1 / 10 ^ 15 : ℚ) ⟨2, [0, 1], [1, 1]⟩ 2 [0, 0] = .ok (1, [-1, 2]) ∧
    eval (1 / 10 ^ 15 : ℚ) ⟨2, [0, 1], [1, 1]⟩ 2 = .ok 0 := by
  constructor
  · decide +kernel
  · decide +kernel

/-! ### Derivative evaluation -/

theorem slope_ok {f : LE K} (hf : f.WF) {i j : Nat} (hij : i < j) (hj : j < f.num) :
    slope f i j = .ok ((f.cf j - f.cf i) / (f.nd j - f.nd i)) := by
  have hd := (sub_pos.2 (hf.lt hij hj)).ne'
  rw [slope, LE.rd_cf hf hj, bind_ok, LE.rd_cf hf (by omega), bind_ok, LE.rd_nd hf hj, bind_ok, LE.rd_nd hf (by omega), bind_ok,
    dv_ok hd]

theorem derivEval_out {tol x : K} {f : LE K} (hf : f.WF) (h : x < f.nd 0 ∨ f.nd (f.num - 1) < x) :
    derivEval tol f x = .ok 0 := by
  have := hf.two
  rw [derivEval, if_neg (by omega), LE.rd_nd hf (by omega), bind_ok, LE.rd_nd hf (by omega), bind_ok, if_pos h]

theorem derivEval_in {tol x : K} {f : LE K} (hf : f.WF) (hl : f.nd 0 ≤ x) (hh : x ≤ f.nd (f.num - 1)) {i : Nat}
    (h1 : findInterval tol f x = .ok i) : derivEval tol f x = derivAt tol f x i := by
  have := hf.two
  rw [derivEval, if_neg (by omega), LE.rd_nd hf (by omega), bind_ok, LE.rd_nd hf (by omega), bind_ok, if_neg (by
      rintro (h | h)
      · exact absurd hl (not_le.2 h)
      · exact absurd hh (not_le.2 h)), h1, bind_ok]

theorem derivEval_seg {tol x : K} (ht : 0 ≤ tol) {f : LE K} (hf : f.WF) {i : Nat} (hi : i + 1 < f.num) (h1 : f.nd i < x) (h2 : x ≤ f.nd (i + 1))
    (hfar : ∀ k < f.num, k ≤ i → tol < |x - f.nd k|) (hfar2 : ∀ k, i < k → k + 1 < f.num → tol < |x - f.nd k|) :
    derivEval tol f x = .ok ((f.cf (i + 1) - f.cf i) / (f.nd (i + 1) - f.nd i)) := by
  have hl : f.nd 0 ≤ x := (hf.le (Nat.zero_le i) (by omega)).trans h1.le
  have hh : x ≤ f.nd (f.num - 1) := h2.trans (hf.le (by omega) (by omega))
  obtain ⟨k, p1, p2, p3⟩ := findInterval_ok (tol := tol) hf hl hh
  have hk : ¬ |x - f.nd k| ≤ tol := by
    by_cases hki : k ≤ i
    · exact not_le.2 (hfar k (by omega) hki)
    · exact not_le.2 (hfar2 k (by omega) p2)
  rcases p3 with ⟨q1, q2⟩ | q
  · have hd := (sub_pos.2 (hf.inc k p2)).ne'
    have ki : k = i := by
      rcases lt_trichotomy k i with h | h | h
      · exact absurd (q2.trans (hf.le (i := k + 1) (j := i) h (by omega))) (not_le.2 h1)
      · exact h
      · exfalso
        have h3 := hf.le (i := i + 1) (j := k) h (by omega)
        have e : x = f.nd k := le_antisymm (h2.trans h3) q1
        have h4 := hfar2 k h p2
        rw [e, sub_self, abs_zero] at h4
        exact absurd h4 (not_lt.2 ht)
    subst ki
    rw [derivEval_in hf hl hh p1, derivAt, LE.rd_nd hf (by omega), bind_ok, if_neg hk, slopeAt, LE.rd_nd hf p2, bind_ok,
      LE.rd_nd hf (by omega), bind_ok, dv_ok hd, bind_ok, LE.rd_cf hf (by omega), bind_ok, LE.rd_cf hf p2, bind_ok, pure_eq_ok]
    congr 1
    field_simp
    ring
  · exact absurd q hk

/-- Searching for an interior node ends at that node. -/
theorem bisect_node {tol : K} (ht : 0 ≤ tol) {f : LE K} (hf : f.WF) {k : Nat} (hk0 : k < f.num) (hk : k + 1 < f.num)
    (hsep : ∀ j < f.num, |f.nd k - f.nd j| ≤ tol → j = k) :
    ∀ fuel lo hi, lo < k → k < hi → hi < f.num → ∀ {i}, bisect tol f.nodes (f.nd k) fuel lo hi = .ok i → i = k := by
  intro fuel
  induction fuel with
  | zero => intro lo hi _ _ _ i h; simp [bisect] at h
  | succ fuel ih =>
    intro lo hi hlo hhi hn i h
    rw [bisect, if_neg (by omega), LE.rd_nd hf (by omega), bind_ok] at h
    by_cases h1 : |f.nd k - f.nd (lo + (hi - lo) / 2)| ≤ tol
    · rw [if_pos h1] at h
      have := hsep _ (by omega) h1
      injection h with h
      omega
    · rw [if_neg h1] at h
      have hne : lo + (hi - lo) / 2 ≠ k := by
        intro e; rw [e, sub_self, abs_zero] at h1; exact h1 ht
      by_cases h2 : f.nd k < f.nd (lo + (hi - lo) / 2)
      · rw [if_pos h2] at h
        have : k < lo + (hi - lo) / 2 := by
          by_contra hc; exact absurd h2 (not_lt.2 (hf.le (by omega) hk0))
        exact ih _ _ hlo this (by omega) h
      · rw [if_neg h2] at h
        have : lo + (hi - lo) / 2 < k := by
          by_contra hc; exact h2 (hf.lt (by omega) (by omega))
        exact ih _ _ this hhi hn h

/-- At a node without other nodes within the tolerance the search returns that node, or the interval before the last node. -/
theorem findInterval_node {tol : K} (ht : 0 ≤ tol) {f : LE K} (hf : f.WF) {k : Nat} (hk : k < f.num)
    (hsep : ∀ j < f.num, |f.nd k - f.nd j| ≤ tol → j = k) :
    ∃ i, findInterval tol f (f.nd k) = .ok i ∧ i + 1 < f.num ∧ (i = k ∨ i + 1 = k) := by
  have two := hf.two
  obtain ⟨i, p1, p2, p3⟩ := findInterval_ok (tol := tol) hf (hf.le (Nat.zero_le k) hk) (hf.le (show k ≤ f.num - 1 by omega) (by omega))
  refine ⟨i, p1, p2, ?_⟩
  rcases p3 with ⟨q1, q2⟩ | q
  · have h1 : i ≤ k := by
      by_contra h; exact absurd q1 (not_le.2 (hf.lt (by omega) (by omega)))
    have h2 : k ≤ i + 1 := by
      by_contra h; exact absurd q2 (not_le.2 (hf.lt (by omega) hk))
    omega
  · exact .inl (hsep i (by omega) q)

/-- **C59** At the first and last node, with neighbours further than the tolerance, the result is the slope of the first and last
segment. -/
theorem derivEval_first {tol : K} (ht : 0 ≤ tol) {f : LE K} (hf : f.WF) (hsep : ∀ j < f.num, |f.nd 0 - f.nd j| ≤ tol → j = 0) :
    derivEval tol f (f.nd 0) = .ok ((f.cf 1 - f.cf 0) / (f.nd 1 - f.nd 0)) := by
  have two := hf.two
  obtain ⟨i, p1, p2, p3⟩ := findInterval_node ht hf (k := 0) (by omega) hsep
  have : i = 0 := by omega
  subst this
  rw [derivEval_in hf le_rfl (hf.le (Nat.zero_le _) (by omega)) p1, derivAt, LE.rd_nd hf (by omega), bind_ok,
    if_pos (by rw [sub_self, abs_zero]; exact ht), if_pos rfl, slope_ok hf (by omega) (by omega)]

theorem derivEval_last {tol : K} (ht : 0 ≤ tol) {f : LE K} (hf : f.WF)
    (hsep : ∀ j < f.num, |f.nd (f.num - 1) - f.nd j| ≤ tol → j = f.num - 1) :
    derivEval tol f (f.nd (f.num - 1)) =
      .ok ((f.cf (f.num - 1) - f.cf (f.num - 2)) / (f.nd (f.num - 1) - f.nd (f.num - 2))) := by
  have two := hf.two
  have e : f.num - 2 + 1 = f.num - 1 := by omega
  have := derivEval_seg ht hf (x := f.nd (f.num - 1)) (i := f.num - 2) (by omega) (hf.lt (by omega) (by omega)) (by rw [e])
    (fun k hk hki => lt_of_not_ge fun h => by have := hsep k hk h; omega) (fun k h1 h2 => by omega)
  rw [this, e]

/-- **C59** At an interior node the result is the central difference quotient, which lies between the two one-sided slopes. -/
theorem derivEval_node {tol : K} (ht : 0 ≤ tol) {f : LE K} (hf : f.WF) {k : Nat} (h0 : 0 < k) (hk : k + 1 < f.num)
    (hsep : ∀ i < f.num, ∀ j < f.num, |f.nd i - f.nd j| ≤ tol → i = j) :
    ∃ d, derivEval tol f (f.nd k) = .ok d ∧ d = (f.cf (k + 1) - f.cf (k - 1)) / (f.nd (k + 1) - f.nd (k - 1)) ∧
      Min.min ((f.cf k - f.cf (k - 1)) / (f.nd k - f.nd (k - 1))) ((f.cf (k + 1) - f.cf k) / (f.nd (k + 1) - f.nd k)) ≤ d ∧
      d ≤ Max.max ((f.cf k - f.cf (k - 1)) / (f.nd k - f.nd (k - 1))) ((f.cf (k + 1) - f.cf k) / (f.nd (k + 1) - f.nd k)) := by
  have hkk : k - 1 + 1 = k := by omega
  have ha : 0 < f.nd k - f.nd (k - 1) := sub_pos.2 (hf.lt (by omega) (by omega))
  have hb : 0 < f.nd (k + 1) - f.nd k := sub_pos.2 (hf.inc k hk)
  have hab : f.nd (k + 1) - f.nd (k - 1) = (f.nd (k + 1) - f.nd k) + (f.nd k - f.nd (k - 1)) := by ring
  refine ⟨_, ?_, rfl, ?_, ?_⟩
  · obtain ⟨i, p1, p2, p3⟩ := findInterval_ok (tol := tol) (x := f.nd k) hf (hf.le (Nat.zero_le k) (by omega))
      (hf.le (show k ≤ f.num - 1 by omega) (by omega))
    have hin := derivEval_in hf (hf.le (Nat.zero_le k) (by omega)) (hf.le (show k ≤ f.num - 1 by omega) (by omega)) p1
    have ki : i = k := by
      rw [findInterval, if_neg (by omega)] at p1
      exact bisect_node ht hf (by omega) hk (fun j hj h => (hsep k (by omega) j hj h).symm) f.num 0 (f.num - 1) h0 (by omega) (by omega) p1
    subst ki
    rw [hin, derivAt, LE.rd_nd hf (by omega), bind_ok, if_pos (by rw [sub_self, abs_zero]; exact ht), if_neg (by omega),
      if_pos (by omega), slope_ok hf (by omega) hk]
  · rcases le_total ((f.cf k - f.cf (k - 1)) / (f.nd k - f.nd (k - 1))) ((f.cf (k + 1) - f.cf k) / (f.nd (k + 1) - f.nd k)) with h | h
    · rw [min_eq_left h, div_le_div_iff₀ ha (by rw [hab]; linarith)]
      rw [div_le_div_iff₀ ha hb] at h
      rw [hab]; nlinarith
    · rw [min_eq_right h, div_le_div_iff₀ hb (by rw [hab]; linarith)]
      rw [div_le_div_iff₀ hb ha] at h
      rw [hab]; nlinarith
  · rcases le_total ((f.cf k - f.cf (k - 1)) / (f.nd k - f.nd (k - 1))) ((f.cf (k + 1) - f.cf k) / (f.nd (k + 1) - f.nd k)) with h | h
    · rw [max_eq_right h, div_le_div_iff₀ (by rw [hab]; linarith) hb]
      rw [div_le_div_iff₀ ha hb] at h
      rw [hab]; nlinarith
    · rw [max_eq_left h, div_le_div_iff₀ (by rw [hab]; linarith) ha]
      rw [div_le_div_iff₀ hb ha] at h
      rw [hab]; nlinarith

/-! ### The derivative expansion -/

/-- The coefficient at node `ii` when the two divisions of the fourth-order formula are possible. -/
def derivVal (f : LE K) (ii : Nat) : K :=
  if ii = 0 then (f.cf 1 - f.cf 0) / (f.nd 1 - f.nd 0)
  else if ii = f.num - 1 then (f.cf (f.num - 1) - f.cf (f.num - 2)) / (f.nd (f.num - 1) - f.nd (f.num - 2))
  else if f.num ≤ 5 ∨ ii = 1 ∨ ii = f.num - 2 then (f.cf (ii + 1) - f.cf (ii - 1)) / (f.nd (ii + 1) - f.nd (ii - 1))
  else
    let r := ((f.nd (ii + 2) - f.nd ii) ^ 3 + (f.nd ii - f.nd (ii - 2)) ^ 3) /
      ((f.nd (ii + 1) - f.nd ii) ^ 3 + (f.nd ii - f.nd (ii - 1)) ^ 3)
    (r * (f.cf (ii + 1) - f.cf (ii - 1)) - f.cf (ii + 2) + f.cf (ii - 2)) /
      (r * (f.nd (ii + 1) - f.nd (ii - 1)) - (f.nd (ii + 2) - f.nd (ii - 2)))

/-- The denominator of the fourth-order formula does not vanish at any node where it is used. -/
def NonDeg (f : LE K) : Prop := 5 < f.num → ∀ ii, 2 ≤ ii → ii + 2 < f.num →
  ((f.nd (ii + 2) - f.nd ii) ^ 3 + (f.nd ii - f.nd (ii - 2)) ^ 3) /
      ((f.nd (ii + 1) - f.nd ii) ^ 3 + (f.nd ii - f.nd (ii - 1)) ^ 3) * (f.nd (ii + 1) - f.nd (ii - 1)) ≠
    f.nd (ii + 2) - f.nd (ii - 2)

theorem cube_pos {f : LE K} (hf : f.WF) {ii : Nat} (h1 : 1 ≤ ii) (h2 : ii + 1 < f.num) :
    0 < (f.nd (ii + 1) - f.nd ii) ^ 3 + (f.nd ii - f.nd (ii - 1)) ^ 3 := by
  have a := pow_pos (sub_pos.2 (hf.inc ii h2)) 3
  have b := pow_pos (sub_pos.2 (hf.lt (show ii - 1 < ii by omega) (by omega))) 3
  exact add_pos a b

theorem derivNode_ok {f : LE K} (hf : f.WF) (hd : NonDeg f) {ii : Nat} (hi : ii < f.num) :
    derivNode f ii = .ok (derivVal f ii) := by
  have two := hf.two
  rw [derivNode, derivVal]
  by_cases h0 : ii = 0
  · rw [if_pos h0, if_pos h0, slope_ok hf (by omega) (by omega)]
  rw [if_neg h0, if_neg h0]
  by_cases h1 : ii = f.num - 1
  · rw [if_pos h1, if_pos h1, slope_ok hf (by omega) (by omega)]
  rw [if_neg h1, if_neg h1]
  by_cases h2 : f.num ≤ 5
  · rw [if_pos h2, if_pos (.inl h2), slope_ok hf (by omega) (by omega)]
  rw [if_neg h2]
  by_cases h3 : ii = 1 ∨ ii = f.num - 2
  · rw [if_pos h3, if_pos (.inr h3), slope_ok hf (by omega) (by omega)]
  rw [if_neg h3, if_neg (by omega), deriv4, LE.rd_nd hf (by omega), bind_ok, LE.rd_nd hf (by omega), bind_ok,
    LE.rd_nd hf (by omega), bind_ok, LE.rd_nd hf (by omega), bind_ok, LE.rd_nd hf (by omega), bind_ok,
    LE.rd_cf hf (by omega), bind_ok, LE.rd_cf hf (by omega), bind_ok, LE.rd_cf hf (by omega), bind_ok,
    LE.rd_cf hf (by omega), bind_ok, dv_ok (cube_pos hf (by omega) (by omega)).ne', bind_ok,
    dv_ok (sub_ne_zero.2 (hd (by omega) ii (by omega) (by omega)))]

theorem deriv_ok {f : LE K} (hf : f.WF) (hd : NonDeg f) :
    deriv f = .ok ⟨f.num, f.nodes, (List.range f.num).map (derivVal f)⟩ := by
  have two := hf.two
  have e := forN_fill_all (n := f.num) (a := f.coeff) (body := fun ii c => do
    let v ← derivNode f ii
    wr c ii v) (derivVal f) hf.hc (by
      intro i hi b hb
      rw [derivNode_ok hf hd hi, bind_ok])
  rw [deriv, cassert_of (by simp; omega), bind_ok, e, bind_ok, pure_eq_ok]

/-- **C60** The derivative of an expansion that interpolates an affine function is the constant slope, at every node and at every
point of the range. Missing: grids for which the fourth-order formula divides by zero, see `deriv_counterexample`. -/
theorem deriv_affine_partial {tol : K} (ht : 0 ≤ tol) {f : LE K} (hf : f.WF) (hd : NonDeg f) {a b : K}
    (hc : ∀ i < f.num, f.cf i = a * f.nd i + b) :
    ∃ h, deriv f = .ok h ∧ h.WF ∧ h.nodes = f.nodes ∧ (∀ i < f.num, h.cf i = a) ∧
      ∀ x, f.nd 0 ≤ x → x ≤ f.nd (f.num - 1) → eval tol h x = .ok a := by
  have two := hf.two
  have hw : (LE.mk f.num f.nodes ((List.range f.num).map (derivVal f))).WF := WF.swap hf (by simp)
  have q : ∀ i j, i < j → j < f.num → (f.cf j - f.cf i) / (f.nd j - f.nd i) = a := by
    intro i j hij hj
    have h := (sub_pos.2 (hf.lt hij hj)).ne'
    rw [hc i (by omega), hc j hj, div_eq_iff h]; ring
  have hv : ∀ i < f.num, derivVal f i = a := by
    intro i hi
    rw [derivVal]
    by_cases h0 : i = 0
    · rw [if_pos h0]; exact q 0 1 (by omega) (by omega)
    rw [if_neg h0]
    by_cases h1 : i = f.num - 1
    · rw [if_pos h1]; exact q _ _ (by omega) (by omega)
    rw [if_neg h1]
    by_cases h3 : f.num ≤ 5 ∨ i = 1 ∨ i = f.num - 2
    · rw [if_pos h3]; exact q _ _ (by omega) (by omega)
    rw [if_neg h3]
    dsimp only
    rw [div_eq_iff (sub_ne_zero.2 (hd (by omega) i (by omega) (by omega))), hc _ (by omega), hc _ (by omega), hc _ (by omega),
      hc _ (by omega)]
    ring
  have hcf : ∀ i < f.num, (LE.mk f.num f.nodes ((List.range f.num).map (derivVal f))).cf i = a := by
    intro i hi
    show ((List.range f.num).map (derivVal f)).getD i 0 = a
    rw [map_range_getD _ hi, hv i hi]
  refine ⟨_, deriv_ok hf hd, hw, rfl, hcf, fun x hl hh => ?_⟩
  obtain ⟨i, t, hi, _, _, h3, _⟩ := eval_form hf ht hl hh
  rw [h3 _ (by simp)]
  have e1 := hcf i (by omega)
  have e2 := hcf (i + 1) hi
  simp only [LE.cf] at e1 e2
  rw [e1, e2]
  congr 1; ring

/-- **C60** On a uniform grid the formula never divides by zero, and at every node at least two steps from both ends (with more
than five nodes) it is exact for polynomials of degree four. -/
theorem deriv_uniform {f : LE K} (hf : f.WF) {x0 s : K} (hs : 0 < s) (hu : ∀ i < f.num, f.nd i = x0 + i * s) :
    NonDeg f ∧ ∀ a0 a1 a2 a3 a4 : K,
      (∀ i < f.num, f.cf i = a0 + a1 * f.nd i + a2 * f.nd i ^ 2 + a3 * f.nd i ^ 3 + a4 * f.nd i ^ 4) →
      ∃ h, deriv f = .ok h ∧ h.nodes = f.nodes ∧ (5 < f.num → ∀ i, 2 ≤ i → i + 2 < f.num →
        h.cf i = a1 + 2 * a2 * f.nd i + 3 * a3 * f.nd i ^ 2 + 4 * a4 * f.nd i ^ 3) := by
  have nds : ∀ i, 2 ≤ i → i + 2 < f.num → f.nd (i + 2) = f.nd i + 2 * s ∧ f.nd (i + 1) = f.nd i + s ∧ f.nd (i - 1) = f.nd i - s ∧
      f.nd (i - 2) = f.nd i - 2 * s := by
    intro i h1 h2
    obtain ⟨m, rfl⟩ : ∃ m, i = m + 2 := ⟨i - 2, by omega⟩
    rw [hu _ (by omega), hu _ (by omega), hu _ (by omega), hu _ (by omega), hu _ (by omega),
      show m + 2 - 1 = m + 1 by omega, show m + 2 - 2 = m by omega]
    push_cast
    refine ⟨by ring, by ring, by ring, by ring⟩
  have rat : ∀ y : K, ((y + 2 * s - y) ^ 3 + (y - (y - 2 * s)) ^ 3) / ((y + s - y) ^ 3 + (y - (y - s)) ^ 3) = 8 := by
    intro y
    have : (y + s - y) ^ 3 + (y - (y - s)) ^ 3 ≠ 0 := by
      have e : (y + s - y) ^ 3 + (y - (y - s)) ^ 3 = 2 * s ^ 3 := by ring
      rw [e]; positivity
    rw [div_eq_iff this]; ring
  have hnd : NonDeg f := by
    intro h5 i h1 h2
    obtain ⟨e1, e2, e3, e4⟩ := nds i h1 h2
    rw [e1, e2, e3, e4, rat]
    intro h
    have : s = 0 := by linarith
    exact hs.ne' this
  refine ⟨hnd, fun a0 a1 a2 a3 a4 hc => ⟨_, deriv_ok hf hnd, rfl, fun h5 i h1 h2 => ?_⟩⟩
  show ((List.range f.num).map (derivVal f)).getD i 0 = _
  obtain ⟨e1, e2, e3, e4⟩ := nds i h1 h2
  rw [map_range_getD _ (by omega), derivVal, if_neg (by omega), if_neg (by omega), if_neg (by omega)]
  dsimp only
  rw [hc _ (by omega), hc _ (by omega), hc _ (by omega), hc _ (by omega), e1, e2, e3, e4, rat]
  have : 8 * (f.nd i + s - (f.nd i - s)) - (f.nd i + 2 * s - (f.nd i - 2 * s)) ≠ 0 := by
    have e : 8 * (f.nd i + s - (f.nd i - s)) - (f.nd i + 2 * s - (f.nd i - 2 * s)) = 12 * s := by ring
    rw [e]; positivity
  rw [div_eq_iff this]
  ring

/-- **C60** On this grid, which is strictly increasing, the fourth-order formula divides by zero. -/
theorem deriv_counterexample :
    (LE.mk 6 [-152, -147, 0, 35, 95, 200] [-152, -147, 0, 35, 95, 200] : LE ℚ).WF ∧
    deriv (LE.mk 6 [-152, -147, 0, 35, 95, 200] [-152, -147, 0, 35, 95, 200] : LE ℚ) = .error .ub := by
  refine ⟨⟨rfl, rfl, by decide, ?_⟩, by decide +kernel⟩
  intro i hi
  have : i = 0 ∨ i = 1 ∨ i = 2 ∨ i = 3 ∨ i = 4 := by dsimp at hi; omega
  rcases this with rfl | rfl | rfl | rfl | rfl <;> norm_num [LE.nd]

end

/-! ### Over the reals -/

/-- **C59** Away from the nodes (further than the tolerance), derivative evaluation is the derivative of the interpolant, also
outside the node range. Nodes: `derivEval_first`, `derivEval_last`, `derivEval_node`. -/
theorem derivEval_hasDerivAt {tol x : ℝ} (ht : 0 ≤ tol) {f : LE ℝ} (hf : f.WF) (hx : ∀ k < f.num, tol < |x - f.nd k|) :
    ∃ d, derivEval tol f x = .ok d ∧ HasDerivAt (pl f.nodes f.coeff) d x := by
  have two := hf.two
  have hne : ∀ k < f.num, x ≠ f.nd k := by
    intro k hk e
    have := hx k hk
    rw [e, sub_self, abs_zero] at this
    exact absurd this (not_lt.2 ht)
  rcases tri f x with h | ⟨hl, hh⟩
  · refine ⟨0, derivEval_out hf h, ?_⟩
    have : pl f.nodes f.coeff =ᶠ[nhds x] fun _ => 0 := by
      rcases h with h | h
      · filter_upwards [eventually_lt_nhds h] with y hy using pl_out hf (.inl hy)
      · filter_upwards [eventually_gt_nhds h] with y hy using pl_out hf (.inr hy)
    exact (hasDerivAt_const x (0 : ℝ)).congr_of_eventuallyEq this
  · obtain ⟨i, h1, h2, h3⟩ := seg_exists hf hl hh
    have h2' := lt_of_le_of_ne h2 (hne i (by omega)).symm
    have h3' := lt_of_le_of_ne h3 (hne (i + 1) h1)
    refine ⟨_, derivEval_seg ht hf h1 h2' h3 (fun k hk _ => hx k hk) (fun k _ hk => hx k (by omega)), ?_⟩
    have : pl f.nodes f.coeff =ᶠ[nhds x]
        fun y => f.cf i + (f.cf (i + 1) - f.cf i) / (f.nd (i + 1) - f.nd i) * (y - f.nd i) := by
      filter_upwards [eventually_gt_nhds h2', eventually_lt_nhds h3'] with y p q using pl_seg hf h1 p.le q.le
    refine HasDerivAt.congr_of_eventuallyEq ?_ this
    have e0 : HasDerivAt (fun y : ℝ => y - f.nd i) 1 x := (hasDerivAt_id x).sub_const (f.nd i)
    have e := (e0.const_mul ((f.cf (i + 1) - f.cf i) / (f.nd (i + 1) - f.nd i))).const_add (f.cf i)
    rw [mul_one] at e
    exact e

/-! ### The hypotheses are satisfiable -/

example := paramGrad2_value_partial (tol := (0 : ℚ)) (x := 2) exWF le_rfl (by norm_num [LE.nd]) (by norm_num [LE.nd])
  (fun k _ h => sub_eq_zero.1 (abs_nonpos_iff.1 h)) (grad := [7, 7, 7, 7]) (by decide)
example := paramGrad_value_partial (tol := (0 : ℚ)) exWF le_rfl (nx := 1) (x := [2]) (by decide)
  (fun ii h => by have : ii = 0 := by omega
                  subst this; norm_num [LE.nd])
  (fun ii _ k _ h => sub_eq_zero.1 (abs_nonpos_iff.1 h)) (grad := [7, 7, 7, 7]) (by decide)
theorem exSep {K : Type} [Field K] [LinearOrder K] [IsStrictOrderedRing K] {f : LE K} (hf : f.WF) :
    ∀ i < f.num, ∀ j < f.num, |f.nd i - f.nd j| ≤ 0 → i = j := by
  intro i hi j hj h
  have e := sub_eq_zero.1 (abs_nonpos_iff.1 h)
  rcases lt_trichotomy i j with h | h | h
  · exact absurd e (hf.lt h hj).ne
  · exact h
  · exact absurd e (hf.lt h hi).ne'
example := derivEval_first (tol := (0 : ℚ)) le_rfl exWF (fun j hj h => (exSep exWF 0 (by decide) j hj h).symm)
example := derivEval_last (tol := (0 : ℚ)) le_rfl exWF (fun j hj h => (exSep exWF 2 (by decide) j hj h).symm)
example := derivEval_node (tol := (0 : ℚ)) le_rfl exWF (k := 1) (by decide) (by decide) (exSep exWF)
theorem exWF6 : (LE.mk 6 [0, 1, 2, 3, 4, 5] [1, 3, 5, 7, 9, 11] : LE ℚ).WF := by
  refine ⟨rfl, rfl, by decide, ?_⟩
  intro i hi
  have : i = 0 ∨ i = 1 ∨ i = 2 ∨ i = 3 ∨ i = 4 := by dsimp at hi; omega
  rcases this with rfl | rfl | rfl | rfl | rfl <;> norm_num [LE.nd]
theorem exUnif : ∀ i < 6, (LE.mk 6 [0, 1, 2, 3, 4, 5] [1, 3, 5, 7, 9, 11] : LE ℚ).nd i = 0 + i * 1 := by
  intro i hi
  have : i = 0 ∨ i = 1 ∨ i = 2 ∨ i = 3 ∨ i = 4 ∨ i = 5 := by omega
  rcases this with rfl | rfl | rfl | rfl | rfl | rfl <;> norm_num [LE.nd]
example := deriv_uniform exWF6 one_pos exUnif
example := deriv_affine_partial (tol := (0 : ℚ)) le_rfl exWF6 (deriv_uniform exWF6 one_pos exUnif).1 (a := 2) (b := 1) (by
  intro i hi
  have : i = 0 ∨ i = 1 ∨ i = 2 ∨ i = 3 ∨ i = 4 ∨ i = 5 := by dsimp at hi; omega
  rcases this with rfl | rfl | rfl | rfl | rfl | rfl <;> norm_num [LE.nd, LE.cf])
example := derivEval_hasDerivAt (tol := 0) (x := 2) le_rfl (f := ⟨2, [0, 3], [1, 5]⟩) ⟨rfl, rfl, by decide, by
    intro i hi
    have : i = 0 := by dsimp at hi; omega
    subst this; norm_num [LE.nd]⟩ (by
  intro k hk
  have : k = 0 ∨ k = 1 := by dsimp at hk; omega
  rcases this with rfl | rfl <;> norm_num [LE.nd])

end C3.Lin

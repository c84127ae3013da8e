/- C32, C34 (common grid), C35: evaluation, algebra and extrema of linear elements. -/
import Verif.Lin.Lemmas
import Verif.Core.Buf
import Mathlib.Tactic.NormNum

set_option linter.unusedSectionVars false

namespace C3.Lin
variable {K : Type} [Field K] [LinearOrder K] [IsStrictOrderedRing K]

/-- Every point is left of, right of, or inside the node range. -/
theorem tri (f : LE K) (x : K) : (x < f.nd 0 ∨ f.nd (f.num - 1) < x) ∨ (f.nd 0 ≤ x ∧ x ≤ f.nd (f.num - 1)) := by
  rcases lt_or_ge x (f.nd 0) with h | h
  · exact .inl (.inl h)
  rcases lt_or_ge (f.nd (f.num - 1)) x with h' | h'
  · exact .inl (.inr h')
  · exact .inr ⟨h, h'⟩

theorem pl_out {f : LE K} (hf : f.WF) {x : K} (h : x < f.nd 0 ∨ f.nd (f.num - 1) < x) : pl f.nodes f.coeff x = 0 := by
  have hx : ∀ i, i + 1 < f.nodes.length → f.nodes.getD i 0 < f.nodes.getD (i + 1) 0 := by
    intro i hi; rw [hf.hn] at hi; exact hf.inc i hi
  rcases h with h | h
  · exact pl_left hx h
  · exact pl_right _ _ hx (by rw [hf.hn]; exact h)

theorem pl_seg {f : LE K} (hf : f.WF) {x : K} {i : Nat} (hi : i + 1 < f.num) (h1 : f.nd i ≤ x) (h2 : x ≤ f.nd (i + 1)) :
    pl f.nodes f.coeff x = f.cf i + (f.cf (i + 1) - f.cf i) / (f.nd (i + 1) - f.nd i) * (x - f.nd i) :=
  pl_between i f.nodes f.coeff (by intro i hi; rw [hf.hn] at hi; exact hf.inc i hi) (by rw [hf.hn, hf.hc])
    (by rw [hf.hn]; exact hi) h1 h2

/-- **C32** For every expansion and every point that is a node or further than the tolerance from every node, evaluation is
the piecewise linear interpolant (zero outside the node range). Missing: points within the tolerance of a node they differ
from, see `eval_close` and `eval_counterexample`. -/
theorem eval_value_partial {tol : K} {f : LE K} (hf : f.WF) (ht : 0 ≤ tol) {x : K}
    (hx : ∀ k < f.num, |x - f.nd k| ≤ tol → x = f.nd k) : eval tol f x = .ok (pl f.nodes f.coeff x) := by
  rcases tri f x with h | ⟨hl, hh⟩
  · rw [eval_out hf h, pl_out hf h]
  · obtain ⟨i, t, hi, _, _, h3, h4⟩ := eval_form hf ht hl hh
    rw [show eval tol f x = _ from h3 f.coeff hf.hc]
    congr 1
    have hd : f.nd (i + 1) - f.nd i ≠ 0 := (sub_pos.2 (hf.inc i hi)).ne'
    have : f.nd i ≤ x ∧ x ≤ f.nd (i + 1) ∧ t = (f.nd (i + 1) - x) / (f.nd (i + 1) - f.nd i) := by
      rcases h4 with h4 | ⟨h4, h5⟩
      · exact h4
      · have e := hx i (by omega) h5
        exact ⟨e.ge, e ▸ (hf.inc i hi).le, by rw [h4, e, div_self hd]⟩
    obtain ⟨ha, hb, rfl⟩ := this
    rw [pl_seg hf hi ha hb]
    show f.cf i * _ + f.cf (i + 1) * _ = _
    field_simp
    ring

/-- **C32** With tolerance zero, evaluation is the interpolant everywhere. -/
theorem eval_value_exact {f : LE K} (hf : f.WF) (x : K) : eval 0 f x = .ok (pl f.nodes f.coeff x) :=
  eval_value_partial hf le_rfl fun k _ h => sub_eq_zero.1 (abs_nonpos_iff.1 h)

/-- **C32** At a node that has no other node within the tolerance, evaluation returns its coefficient. -/
theorem eval_node {tol : K} {f : LE K} (hf : f.WF) (ht : 0 ≤ tol) {k : Nat} (hk : k < f.num)
    (hsep : ∀ j < f.num, |f.nd k - f.nd j| ≤ tol → j = k) : eval tol f (f.nd k) = .ok (f.cf k) := by
  rw [eval_value_partial hf ht fun j hj h => by rw [hsep j hj h]]
  congr 1
  have two := hf.two
  by_cases h : k + 1 < f.num
  · rw [pl_seg hf h le_rfl (hf.inc k h).le]; simp
  · obtain ⟨m, rfl⟩ : ∃ m, k = m + 1 := ⟨k - 1, by omega⟩
    have hd := (sub_pos.2 (hf.inc m hk)).ne'
    rw [pl_seg hf hk (hf.inc m hk).le le_rfl]
    field_simp
    ring

/-- Chords bound the interpolant's variation. -/
theorem pl_lip_up {f : LE K} (hf : f.WF) {L : K} (hL : ∀ i, i + 1 < f.num → |f.cf (i + 1) - f.cf i| ≤ L * (f.nd (i + 1) - f.nd i))
    {i : Nat} (hi : i + 1 < f.num) {x : K} (h1 : f.nd i ≤ x) (h2 : x ≤ f.nd (i + 1)) :
    |pl f.nodes f.coeff x - f.cf i| ≤ L * (x - f.nd i) ∧ |f.cf (i + 1) - pl f.nodes f.coeff x| ≤ L * (f.nd (i + 1) - x) := by
  have hd := sub_pos.2 (hf.inc i hi)
  have hs : |(f.cf (i + 1) - f.cf i) / (f.nd (i + 1) - f.nd i)| ≤ L := by
    rw [abs_div, abs_of_pos hd, div_le_iff₀ hd]; exact hL i hi
  rw [pl_seg hf hi h1 h2]
  constructor
  · rw [add_sub_cancel_left, abs_mul, abs_of_nonneg (sub_nonneg.2 h1)]
    exact mul_le_mul_of_nonneg_right hs (sub_nonneg.2 h1)
  · have : f.cf (i + 1) - (f.cf i + (f.cf (i + 1) - f.cf i) / (f.nd (i + 1) - f.nd i) * (x - f.nd i)) =
        (f.cf (i + 1) - f.cf i) / (f.nd (i + 1) - f.nd i) * (f.nd (i + 1) - x) := by
      field_simp; ring
    rw [this, abs_mul, abs_of_nonneg (sub_nonneg.2 h2)]
    exact mul_le_mul_of_nonneg_right hs (sub_nonneg.2 h2)

theorem cf_lip {f : LE K} (hL0 : f.WF) {L : K} (hL : ∀ i, i + 1 < f.num → |f.cf (i + 1) - f.cf i| ≤ L * (f.nd (i + 1) - f.nd i)) :
    ∀ d i, i + d < f.num → |f.cf (i + d) - f.cf i| ≤ L * (f.nd (i + d) - f.nd i)
  | 0, i, _ => by simp
  | d + 1, i, h => by
    have h1 := cf_lip hL0 hL d i (by omega)
    have h2 := hL (i + d) (by omega)
    have : f.cf (i + (d + 1)) - f.cf i = (f.cf (i + d + 1) - f.cf (i + d)) + (f.cf (i + d) - f.cf i) := by
      rw [show i + (d + 1) = i + d + 1 by omega]; ring
    rw [this]
    refine (abs_add_le _ _).trans ?_
    rw [show i + (d + 1) = i + d + 1 by omega]
    linarith

/-- Inside the range some interval contains the point. -/
theorem seg_exists {f : LE K} (hf : f.WF) {x : K} (hl : f.nd 0 ≤ x) (hh : x ≤ f.nd (f.num - 1)) :
    ∃ i, i + 1 < f.num ∧ f.nd i ≤ x ∧ x ≤ f.nd (i + 1) := by
  obtain ⟨i, _, h2, h3 | h3⟩ := findInterval_ok (tol := (-1 : K)) hf hl hh
  · exact ⟨i, h2, h3⟩
  · exact absurd (h3.trans_lt (by norm_num : (-1 : K) < 0)) (not_lt.2 (abs_nonneg _))

/-- **C32** For every point, whatever the grid spacing: the result differs from the interpolant by at most the tolerance
times a bound of the slopes. -/
theorem eval_close {tol : K} {f : LE K} (hf : f.WF) (ht : 0 ≤ tol) {L : K}
    (hL : ∀ i, i + 1 < f.num → |f.cf (i + 1) - f.cf i| ≤ L * (f.nd (i + 1) - f.nd i)) (x : K) :
    ∃ v, eval tol f x = .ok v ∧ |v - pl f.nodes f.coeff x| ≤ L * tol := by
  have two := hf.two
  have hL0 : 0 ≤ L := by
    have h1 := hL 0 (by omega)
    have h2 := sub_pos.2 (hf.inc 0 (by omega))
    by_contra h
    have := mul_neg_of_neg_of_pos (not_le.1 h) h2
    linarith [abs_nonneg (f.cf (0 + 1) - f.cf 0)]
  rcases tri f x with h | ⟨hl, hh⟩
  · exact ⟨0, eval_out hf h, by rw [pl_out hf h]; simpa using mul_nonneg hL0 ht⟩
  · obtain ⟨i, t, hi, _, _, h3, h4⟩ := eval_form hf ht hl hh
    refine ⟨_, h3 f.coeff hf.hc, ?_⟩
    have hd : f.nd (i + 1) - f.nd i ≠ 0 := (sub_pos.2 (hf.inc i hi)).ne'
    rcases h4 with ⟨ha, hb, rfl⟩ | ⟨rfl, h5⟩
    · rw [pl_seg hf hi ha hb]
      have : f.cf i * ((f.nd (i + 1) - x) / (f.nd (i + 1) - f.nd i)) +
          f.cf (i + 1) * (1 - (f.nd (i + 1) - x) / (f.nd (i + 1) - f.nd i)) -
          (f.cf i + (f.cf (i + 1) - f.cf i) / (f.nd (i + 1) - f.nd i) * (x - f.nd i)) = 0 := by
        field_simp; ring
      show |f.cf i * _ + f.cf (i + 1) * _ - _| ≤ _
      rw [this, abs_zero]
      exact mul_nonneg hL0 ht
    · show |f.cf i * 1 + f.cf (i + 1) * (1 - 1) - _| ≤ _
      rw [mul_one, sub_self, mul_zero, add_zero]
      obtain ⟨j, hj, hj1, hj2⟩ := seg_exists hf hl hh
      obtain ⟨p1, p2⟩ := pl_lip_up hf hL hj hj1 hj2
      have key : |f.cf i - pl f.nodes f.coeff x| ≤ L * |x - f.nd i| := by
        rcases Nat.lt_or_ge j i with hji | hji
        · have hxi : x ≤ f.nd i := hj2.trans (hf.le (by omega) (by omega))
          have q := cf_lip hf hL (i - (j + 1)) (j + 1) (by omega)
          rw [show j + 1 + (i - (j + 1)) = i by omega] at q
          rw [abs_sub_comm x, abs_of_nonneg (sub_nonneg.2 hxi)]
          have e : f.cf i - pl f.nodes f.coeff x = (f.cf i - f.cf (j + 1)) + (f.cf (j + 1) - pl f.nodes f.coeff x) := by ring
          rw [e]
          refine (abs_add_le _ _).trans ?_
          linarith
        · have hxi : f.nd i ≤ x := (hf.le hji (by omega)).trans hj1
          have q := cf_lip hf hL (j - i) i (by omega)
          rw [show i + (j - i) = j by omega] at q
          rw [abs_of_nonneg (sub_nonneg.2 hxi), abs_sub_comm]
          have e : pl f.nodes f.coeff x - f.cf i = (pl f.nodes f.coeff x - f.cf j) + (f.cf j - f.cf i) := by ring
          rw [e]
          refine (abs_add_le _ _).trans ?_
          linarith
      exact key.trans (mul_le_mul_of_nonneg_left h5 hL0)

/-- **C32** With the tolerance of the code, the point `1e-16` of the unit interval gets the value at 0. -/
theorem eval_counterexample :
    eval (1 / 10 ^ 15 : ℚ) ⟨2, [0, 1], [0, 1]⟩ (1 / 10 ^ 16) = .ok 0 ∧ pl [0, 1] [0, 1] (1 / 10 ^ 16 : ℚ) = 1 / 10 ^ 16 := by
  constructor
  · norm_num [eval, findInterval, bisect, evalAt, rd, abs_of_pos]
  · norm_num [pl]

/-- **C32** Batch evaluation with strides is evaluation point by point. -/
theorem evalN_value {tol : K} {f : LE K} {N incx incy : Nat} {x y : List K} (v : Nat → K)
    (hx : ∀ i < N, i * incx < x.length) (hi : 0 < incy) (hy : ∀ i < N, i * incy < y.length)
    (hv : ∀ i < N, eval tol f (x.getD (i * incx) 0) = .ok (v i)) :
    ∃ y', evalN tol f N x incx y incy = .ok y' ∧ y'.length = y.length ∧ (∀ i < N, y'[i * incy]? = some (v i)) ∧
      ∀ k, (∀ i < N, k ≠ i * incy) → y'[k]? = y[k]? := by
  obtain ⟨s, h1, h2, h3, h4⟩ := forN_scatter (n := N) (a := y) (idx := fun i => i * incy) (g := v)
    (body := fun ii y => do
      let xi ← rd x (ii * incx)
      let v ← eval tol f xi
      wr y (ii * incy) v)
    (fun i hi => hy i hi) (fun i _ j _ h => Nat.eq_of_mul_eq_mul_right hi h) (by
      intro i hi b _ _ _
      rw [rd_getD 0 (hx i hi), bind_ok, hv i hi, bind_ok])
  exact ⟨s, h1, h2, h3, fun k hk => h4 k fun i hi e => hk i hi e.symm⟩

/-! Non-vacuity. -/
theorem exWF : (LE.mk 3 [0, 1, 3] [2, 5, 1] : LE ℚ).WF :=
  ⟨rfl, rfl, by decide, by
    intro i hi
    have : i = 0 ∨ i = 1 := by dsimp at hi; omega
    rcases this with rfl | rfl <;> norm_num [LE.nd]⟩

example := eval_value_exact exWF (5 / 2)
example : eval (1 / 10 ^ 15 : ℚ) ⟨3, [0, 1, 3], [2, 5, 1]⟩ 2 = .ok 3 := by
  rw [eval_value_partial exWF (by norm_num) (by
    intro k hk
    have : k = 0 ∨ k = 1 ∨ k = 2 := by dsimp at hk; omega
    rcases this with rfl | rfl | rfl <;> norm_num [LE.nd, abs_of_pos, abs_of_neg])]
  norm_num [pl]
example := eval_node exWF (tol := 1 / 2) (k := 1) (by norm_num) (by decide) (by
    intro k hk
    have : k = 0 ∨ k = 1 ∨ k = 2 := by dsimp at hk; omega
    rcases this with rfl | rfl | rfl <;> norm_num [LE.nd, abs_of_pos, abs_of_neg])
example := eval_close exWF (tol := 1 / 10 ^ 15) (L := 3) (by norm_num) (by
    intro i hi
    have : i = 0 ∨ i = 1 := by dsimp at hi; omega
    rcases this with rfl | rfl <;> norm_num [LE.nd, LE.cf, abs_of_pos, abs_of_neg]) 2

end C3.Lin

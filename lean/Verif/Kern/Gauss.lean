/-
C94: a single Gaussian kernel: value, derivative, integral and inner product.
-/
import Verif.Kern.Model
import Verif.Lin.Lemmas
import Mathlib.MeasureTheory.Integral.IntervalIntegral.FundThmCalculus
import Mathlib.Analysis.SpecialFunctions.ExpDeriv

namespace C3.Kern

open C3.Lin (dv dv_ok)

/-- Specification: the Gaussian `s exp(-(x-c)^2/w)`. -/
noncomputable def gk (s w c x : ℝ) : ℝ := s * Real.exp (-(x - c) ^ 2 / w)

theorem gk_continuous (s w c : ℝ) : Continuous (gk s w c) := by
  unfold gk
  fun_prop

/-- C94: value. -/
theorem gaussEval_ok {w : ℝ} (h : w ≠ 0) (s c x : ℝ) : gaussEval s w c x = .ok (gk s w c x) := by
  unfold gaussEval
  dsimp only
  rw [dv_ok h, bind_ok, pure_eq_ok, gk]
  congr 4
  ring

/-- C94: a width of zero divides by zero. -/
theorem gaussEval_zero_actual (s c x : ℝ) : gaussEval s 0 c x = .error .ub := by
  unfold gaussEval dv
  dsimp only
  rw [if_pos rfl]; rfl

/-- C94: derivative with respect to the point. -/
theorem gaussDeriv_ok {w : ℝ} (h : w ≠ 0) (s c x : ℝ) : ∃ v, gaussDeriv s w c x = .ok v ∧ HasDerivAt (gk s w c) v x := by
  refine ⟨_, by
    unfold gaussDeriv
    dsimp only
    rw [dv_ok h, bind_ok, pure_eq_ok], ?_⟩
  have h1 : HasDerivAt (fun x : ℝ => -(x - c) ^ 2 / w) (-(2 * (x - c)) / w) x := by
    have := ((((hasDerivAt_id x).sub_const c).pow 2).neg).div_const w
    simpa using this
  refine (h1.exp.const_mul s).congr_deriv ?_
  rw [show (x - c) * (-(x - c) / w) = -(x - c) ^ 2 / w by ring]
  ring

/-- C94: derivative with respect to the centre: the derivative with the roles exchanged. -/
theorem gaussCenter_ok {w : ℝ} (h : w ≠ 0) (s c x : ℝ) : ∃ v, gaussDeriv s w x c = .ok v ∧ HasDerivAt (fun c => gk s w c x) v c := by
  obtain ⟨v, h1, h2⟩ := gaussDeriv_ok h s x c
  refine ⟨v, h1, ?_⟩
  have e : (fun c => gk s w c x) = gk s w x := by
    funext c
    simp only [gk]
    rw [show (x - c) ^ 2 = (c - x) ^ 2 by ring]
  rw [e]
  exact h2

theorem exp_integrable (a b : ℝ) : IntervalIntegrable (fun t : ℝ => Real.exp (-t ^ 2)) MeasureTheory.volume a b :=
  Continuous.intervalIntegrable (by fun_prop) _ _

theorem gk_integral {w : ℝ} (h : 0 < w) (s c lb ub : ℝ) : ∫ x in lb..ub, gk s w c x =
    1 / 2 * Real.sqrt Real.pi * Real.sqrt w * s * (erf ((c - lb) / Real.sqrt w) - erf ((c - ub) / Real.sqrt w)) := by
  have hs : 0 < Real.sqrt w := Real.sqrt_pos.2 h
  have hp : 0 < Real.sqrt Real.pi := Real.sqrt_pos.2 Real.pi_pos
  have e : ∀ x, gk s w c x = s * (fun t => Real.exp (-t ^ 2)) (c / Real.sqrt w - x / Real.sqrt w) := by
    intro x
    simp only [gk]
    congr 2
    rw [← sub_div, div_pow, Real.sq_sqrt h.le]
    ring
  simp only [e]
  rw [intervalIntegral.integral_const_mul, intervalIntegral.integral_comp_sub_div (fun t : ℝ => Real.exp (-t ^ 2)) hs.ne', erf, erf, smul_eq_mul, ← sub_div, ← sub_div, ← mul_sub,
    intervalIntegral.integral_interval_sub_left (exp_integrable _ _) (exp_integrable _ _)]
  field_simp

/-- C94: integral over any interval. -/
theorem gaussInt_ok {w : ℝ} (h : 0 < w) (s c lb ub : ℝ) : gaussInt s w c lb ub = .ok (∫ x in lb..ub, gk s w c x) := by
  have hs : 0 < Real.sqrt w := Real.sqrt_pos.2 h
  unfold gaussInt
  dsimp only
  rw [dv_ok hs.ne', bind_ok, dv_ok hs.ne', bind_ok, pure_eq_ok, gk_integral h]

/-- The product of two Gaussians is a Gaussian. -/
theorem gk_mul {w1 w2 : ℝ} (h1 : 0 < w1) (h2 : 0 < w2) (s1 c1 s2 c2 x : ℝ) : gk s1 w1 c1 x * gk s2 w2 c2 x =
    gk (s1 * s2 * Real.exp (-(c1 - c2) * (c1 - c2) / (w1 + w2))) (w1 * w2 / (w1 + w2)) ((c1 * w2 + w1 * c2) / (w1 + w2)) x := by
  simp only [gk]
  rw [show s1 * Real.exp (-(x - c1) ^ 2 / w1) * (s2 * Real.exp (-(x - c2) ^ 2 / w2)) =
    s1 * s2 * (Real.exp (-(x - c1) ^ 2 / w1) * Real.exp (-(x - c2) ^ 2 / w2)) by ring, ← Real.exp_add, mul_assoc (s1 * s2), ← Real.exp_add]
  congr 2
  have : w1 + w2 ≠ 0 := by positivity
  field_simp
  ring

/-- C94: the inner product is the integral of the product over the interval. -/
theorem gaussInner_ok {w1 w2 : ℝ} (h1 : 0 < w1) (h2 : 0 < w2) (s1 c1 s2 c2 lb ub : ℝ) :
    gaussInner s1 w1 c1 s2 w2 c2 lb ub = .ok (∫ x in lb..ub, gk s1 w1 c1 x * gk s2 w2 c2 x) := by
  have hw : 0 < w1 + w2 := by positivity
  have hs1 : 0 < Real.sqrt w1 := Real.sqrt_pos.2 h1
  have hs2 : 0 < Real.sqrt w2 := Real.sqrt_pos.2 h2
  have hs : 0 < Real.sqrt (w1 + w2) := Real.sqrt_pos.2 hw
  unfold gaussInner
  dsimp only
  rw [dv_ok hw.ne', bind_ok, dv_ok (by positivity), bind_ok, dv_ok (by positivity), bind_ok, dv_ok (by positivity), bind_ok, pure_eq_ok]
  simp only [gk_mul h1 h2]
  rw [gk_integral (by positivity), Real.sqrt_div (by positivity), Real.sqrt_mul h1.le]
  have e : ∀ t : ℝ, ((c1 * w2 + w1 * c2) / (w1 + w2) - t) / (Real.sqrt w1 * Real.sqrt w2 / Real.sqrt (w1 + w2)) =
      (c1 * w2 + w1 * c2 - t * (w1 + w2)) / (Real.sqrt w1 * Real.sqrt w2 * Real.sqrt (w1 + w2)) := by
    intro t
    have hq : Real.sqrt (w1 + w2) * Real.sqrt (w1 + w2) = w1 + w2 := Real.mul_self_sqrt hw.le
    rw [div_sub' hw.ne', div_div_div_eq, div_eq_div_iff (by positivity) (by positivity)]
    linear_combination ((c1 * w2 + w1 * c2 - (w1 + w2) * t) * (Real.sqrt w1 * Real.sqrt w2)) * hq
  rw [e, e]
  congr 1
  field_simp

/-- The hypotheses can be met. -/
example : ∃ v, gaussInner 1 1 0 2 4 1 (-1) 1 = .ok v := ⟨_, gaussInner_ok (by norm_num) (by norm_num) _ _ _ _ _ _⟩

end C3.Kern

/- Hermite polynomials: orthonormality with respect to the Gaussian weight, from the recurrence of the library. -/
import Verif.Poly.Legendre
import Mathlib.Algebra.Polynomial.Eval.Degree
import Mathlib.Analysis.SpecialFunctions.Gaussian.GaussianIntegral
import Mathlib.MeasureTheory.Integral.IntegralEqImproper
import Mathlib.Analysis.SpecialFunctions.ExpDeriv

set_option linter.unusedSectionVars false

namespace C3.Poly
open Finset Real MeasureTheory

/-- A polynomial function. -/
def IsPoly (f : ℝ → ℝ) : Prop := ∃ q : Polynomial ℝ, ∀ x, f x = q.eval x

theorem IsPoly.mul {f g : ℝ → ℝ} (hf : IsPoly f) (hg : IsPoly g) : IsPoly (fun x => f x * g x) := by
  obtain ⟨p, hp⟩ := hf
  obtain ⟨q, hq⟩ := hg
  exact ⟨p * q, fun x => by rw [Polynomial.eval_mul, ← hp, ← hq]⟩

theorem isPoly_p (fam : Fam ℝ) : ∀ n, IsPoly (fam.p n)
  | 0 => ⟨Polynomial.C fam.c0, fun x => by simp⟩
  | 1 => ⟨Polynomial.C fam.l0 + Polynomial.C fam.l1 * Polynomial.X, fun x => by simp⟩
  | n + 2 => by
    obtain ⟨p, hp⟩ := isPoly_p fam n
    obtain ⟨q, hq⟩ := isPoly_p fam (n + 1)
    exact ⟨(Polynomial.C (fam.an (n + 2)) * Polynomial.X + Polynomial.C (fam.bn (n + 2))) * q + Polynomial.C (fam.cn (n + 2)) * p,
      fun x => by rw [Fam.p, hp, hq]; simp⟩

/-- Density of the standard normal distribution. -/
noncomputable def phi (x : ℝ) : ℝ := rexp (-(1 / 2) * x ^ 2) / √(2 * π)

theorem phi_integral : ∫ x, phi x = 1 := by
  have h : √(π / (1 / 2)) ≠ 0 := (Real.sqrt_pos.2 (by positivity)).ne'
  have := integral_gaussian (1 / 2)
  simp only [phi]
  rw [integral_div, this, show π / (1 / 2) = 2 * π by ring] at *
  exact div_self h

theorem IsPoly.integrable {f : ℝ → ℝ} (hf : IsPoly f) : Integrable (fun x => f x * phi x) := by
  obtain ⟨q, hq⟩ := hf
  have e : (fun x => f x * phi x) = fun x => ∑ i ∈ range (q.natDegree + 1), q.coeff i * (x ^ i * rexp (-(1 / 2) * x ^ 2)) / √(2 * π) := by
    funext x
    rw [hq, Polynomial.eval_eq_sum_range, phi, sum_mul]
    exact sum_congr rfl (fun i _ => by ring)
  rw [e]
  refine integrable_finsetSum _ (fun i _ => ?_)
  have h := integrable_rpow_mul_exp_neg_mul_sq (b := 1 / 2) (by norm_num) (s := (i : ℝ)) (by
    have := Nat.cast_nonneg (α := ℝ) i; linarith)
  simp only [Real.rpow_natCast] at h
  exact (h.const_mul _).div_const _

theorem phi_hasDerivAt (x : ℝ) : HasDerivAt phi (-x * phi x) x := by
  have h1 : HasDerivAt (fun y : ℝ => -(1 / 2) * y ^ 2) (-x) x := by
    have := (hasDerivAt_pow 2 x).const_mul (-(1 / 2) : ℝ)
    refine this.congr_deriv ?_
    norm_num; ring
  have := h1.exp.div_const √(2 * π)
  refine this.congr_deriv ?_
  rw [phi]; ring

variable (big : ℝ)

/-- `x p_n = √(n+1) p_{n+1} + √n p_{n-1}`. -/
theorem herm_x (x : ℝ) : ∀ n : Nat, x * (hermFam big).p n x = √((n + 1 : Nat) : ℝ) * (hermFam big).p (n + 1) x + √(n : ℝ) * (hermFam big).p (n - 1) x
  | 0 => by simp [hermFam]
  | n + 1 => by
    have hs : √((n + 2 : Nat) : ℝ) ≠ 0 := (Real.sqrt_pos.2 (by positivity)).ne'
    have ea : (hermFam big).an (n + 2) * √((n + 2 : Nat) : ℝ) = 1 := by
      simp only [hermFam]; rw [one_div, inv_mul_cancel₀ hs]
    have ec : (hermFam big).cn (n + 2) * √((n + 2 : Nat) : ℝ) = -√((n + 1 : Nat) : ℝ) := by
      simp only [hermFam]
      rw [neg_mul, ← Real.sqrt_mul (div_nonneg (by push_cast; linarith [Nat.cast_nonneg (α := ℝ) n]) (by positivity)), div_mul_cancel₀ _ (by positivity)]
      congr 2
      push_cast; ring
    show x * (hermFam big).p (n + 1) x = √((n + 2 : Nat) : ℝ) * (hermFam big).p (n + 2) x + √((n + 1 : Nat) : ℝ) * (hermFam big).p n x
    rw [Fam.p, show (hermFam big).bn (n + 2) = 0 from rfl]
    linear_combination (-x * (hermFam big).p (n + 1) x) * ea - (hermFam big).p n x * ec

/-- `p'_n = √n p_{n-1}`. -/
theorem dp_herm (x : ℝ) : ∀ n : Nat, dp (hermFam big) n x = √(n : ℝ) * (hermFam big).p (n - 1) x
  | 0 => by simp [dp]
  | 1 => by simp [dp, hermFam]
  | n + 2 => by
    have hs : √((n + 2 : Nat) : ℝ) ≠ 0 := (Real.sqrt_pos.2 (by positivity)).ne'
    have ea : (hermFam big).an (n + 2) * √((n + 2 : Nat) : ℝ) = 1 := by
      simp only [hermFam]; rw [one_div, inv_mul_cancel₀ hs]
    have ec : (hermFam big).cn (n + 2) * √((n + 2 : Nat) : ℝ) = -√((n + 1 : Nat) : ℝ) := by
      simp only [hermFam]
      rw [neg_mul, ← Real.sqrt_mul (div_nonneg (by push_cast; linarith [Nat.cast_nonneg (α := ℝ) n]) (by positivity)), div_mul_cancel₀ _ (by positivity)]
      congr 2
      push_cast; ring
    have q2 := Real.mul_self_sqrt (show (0 : ℝ) ≤ ((n + 2 : Nat) : ℝ) by positivity)
    have q1 := Real.mul_self_sqrt (show (0 : ℝ) ≤ ((n + 1 : Nat) : ℝ) by positivity)
    have hx := herm_x big x n
    rw [dp, dp_herm x (n + 1), dp_herm x n, show (hermFam big).bn (n + 2) = 0 from rfl, Nat.add_sub_cancel,
      show n + 2 - 1 = n + 1 from rfl]
    apply mul_left_cancel₀ hs
    push_cast at *
    linear_combination (x * √((n : ℝ) + 1) * (hermFam big).p n x + (hermFam big).p (n + 1) x) * ea +
      (√(n : ℝ) * (hermFam big).p (n - 1) x) * ec + √((n : ℝ) + 1) * hx + (hermFam big).p (n + 1) x * q1 - (hermFam big).p (n + 1) x * q2

theorem herm_mean (n : Nat) : ∫ x, (hermFam big).p n x * phi x = if n = 0 then 1 else 0 := by
  rcases n with _ | n
  · simp only [Fam.p_zero, if_true]
    rw [show (hermFam big).c0 = 1 from rfl]
    simp only [one_mul]
    exact phi_integral
  · rw [if_neg (by omega)]
    have h : ∀ x, HasDerivAt (fun y => (hermFam big).p n y * phi y) (-√((n + 1 : Nat) : ℝ) * ((hermFam big).p (n + 1) x * phi x)) x := fun x => by
      refine ((p_hasDerivAt (hermFam big) x n).mul (phi_hasDerivAt x)).congr_deriv ?_
      have := herm_x big x n
      rw [dp_herm]
      linear_combination (-phi x) * this
    have h0 := integral_eq_zero_of_hasDerivAt_of_integrable h ((isPoly_p _ _).integrable.const_mul _) (isPoly_p _ _).integrable
    rw [integral_const_mul] at h0
    have hs : √((n + 1 : Nat) : ℝ) ≠ 0 := (Real.sqrt_pos.2 (by positivity)).ne'
    rcases mul_eq_zero.1 h0 with h1 | h1
    · exact absurd (neg_eq_zero.1 h1) hs
    · exact h1

/-- The library's Hermite polynomials are orthonormal with respect to the standard normal density. -/
theorem herm_orthonormal (m n : Nat) : ∫ x, (hermFam big).p m x * (hermFam big).p n x * phi x = if m = n then 1 else 0 := by
  refine favard (al := fun n => √(n : ℝ)) (G := fun m n => ∫ x, (hermFam big).p m x * (hermFam big).p n x * phi x) (by simp)
    (fun n => (Real.sqrt_pos.2 (by positivity)).ne') (fun n => ?_) (fun m n => ?_) m n
  · have : ∀ x, (hermFam big).p 0 x * (hermFam big).p n x * phi x = (hermFam big).p n x * phi x := fun x => by simp [hermFam]
    simp only [this]
    exact herm_mean big n
  · have hi : ∀ i j, Integrable (fun x => (hermFam big).p i x * (hermFam big).p j x * phi x) := fun i j =>
      ((isPoly_p _ i).mul (isPoly_p _ j)).integrable
    have e1 : ∫ x, x * ((hermFam big).p m x * (hermFam big).p n x * phi x) =
        √((m + 1 : Nat) : ℝ) * (∫ x, (hermFam big).p (m + 1) x * (hermFam big).p n x * phi x) +
        √(m : ℝ) * ∫ x, (hermFam big).p (m - 1) x * (hermFam big).p n x * phi x := by
      rw [← integral_const_mul, ← integral_const_mul, ← integral_add ((hi _ _).const_mul _) ((hi _ _).const_mul _)]
      congr 1
      funext x
      linear_combination ((hermFam big).p n x * phi x) * herm_x big x m
    have e2 : ∫ x, x * ((hermFam big).p m x * (hermFam big).p n x * phi x) =
        √((n + 1 : Nat) : ℝ) * (∫ x, (hermFam big).p m x * (hermFam big).p (n + 1) x * phi x) +
        √(n : ℝ) * ∫ x, (hermFam big).p m x * (hermFam big).p (n - 1) x * phi x := by
      rw [← integral_const_mul, ← integral_const_mul, ← integral_add ((hi _ _).const_mul _) ((hi _ _).const_mul _)]
      congr 1
      funext x
      linear_combination ((hermFam big).p m x * phi x) * herm_x big x n
    exact e1.symm.trans e2

end C3.Poly

/- Legendre polynomials: derivative identities and orthonormality, from the recurrence of the library. -/
import Verif.Poly.Families
import Verif.Poly.DerivProps
import Mathlib.Analysis.Calculus.Deriv.Pow
import Mathlib.MeasureTheory.Integral.IntervalIntegral.FundThmCalculus
import Mathlib.Tactic.LinearCombination
import Mathlib.Tactic.Positivity
import Mathlib.Tactic.FieldSimp

set_option linter.unusedSectionVars false

namespace C3.Poly
open Finset Real

/-- Legendre polynomials by Bonnet's recurrence. -/
noncomputable def Lg : Nat → ℝ → ℝ
  | 0, _ => 1
  | 1, x => x
  | n + 2, x => ((2 * n + 3) * x * Lg (n + 1) x - (n + 1) * Lg n x) / (n + 2)

/-- Their derivatives. -/
noncomputable def dLg : Nat → ℝ → ℝ
  | 0, _ => 0
  | 1, _ => 1
  | n + 2, x => ((2 * n + 3) * (Lg (n + 1) x + x * dLg (n + 1) x) - (n + 1) * dLg n x) / (n + 2)

theorem Lg_rec (n : Nat) (x : ℝ) : (n + 2 : ℝ) * Lg (n + 2) x = (2 * n + 3) * x * Lg (n + 1) x - (n + 1) * Lg n x := by
  rw [Lg, mul_div_cancel₀ _ (by positivity)]

theorem dLg_rec (n : Nat) (x : ℝ) :
    (n + 2 : ℝ) * dLg (n + 2) x = (2 * n + 3) * (Lg (n + 1) x + x * dLg (n + 1) x) - (n + 1) * dLg n x := by
  rw [dLg, mul_div_cancel₀ _ (by positivity)]

theorem Lg_hasDerivAt (x : ℝ) : ∀ n, HasDerivAt (fun y => Lg n y) (dLg n x) x
  | 0 => hasDerivAt_const x 1
  | 1 => hasDerivAt_id x
  | n + 2 => by
    have h1 := (((hasDerivAt_id x).const_mul (2 * n + 3 : ℝ)).mul (Lg_hasDerivAt x (n + 1)))
    have h := (h1.sub ((Lg_hasDerivAt x n).const_mul (n + 1 : ℝ))).div_const (n + 2 : ℝ)
    have e : ((2 * n + 3 : ℝ) * 1 * Lg (n + 1) x + (2 * n + 3) * x * dLg (n + 1) x - (n + 1) * dLg n x) / (n + 2) = dLg (n + 2) x := by
      rw [dLg]; ring
    simp only [id_eq] at h
    rw [e] at h
    exact h

/-- The two first-order identities between consecutive Legendre polynomials. -/
theorem dLg_ids (x : ℝ) : ∀ n : Nat, x * dLg (n + 1) x - dLg n x = (n + 1) * Lg (n + 1) x ∧
    dLg (n + 1) x - x * dLg n x = (n + 1) * Lg n x
  | 0 => by simp [dLg, Lg]
  | n + 1 => by
    obtain ⟨hB, hC⟩ := dLg_ids x n
    have hr := Lg_rec n x
    have hd := dLg_rec n x
    have hn : (n + 2 : ℝ) ≠ 0 := by positivity
    have hC' : dLg (n + 2) x - x * dLg (n + 1) x = (n + 2) * Lg (n + 1) x := by
      apply mul_left_cancel₀ hn
      linear_combination hd + (n + 1) * hB
    refine ⟨?_, ?_⟩
    · show x * dLg (n + 2) x - dLg (n + 1) x = ((n + 1 : Nat) + 1 : ℝ) * Lg (n + 2) x
      push_cast
      linear_combination x * hC' + x * hB - hC - hr
    · show dLg (n + 2) x - x * dLg (n + 1) x = ((n + 1 : Nat) + 1 : ℝ) * Lg (n + 1) x
      push_cast
      linear_combination hC'

/-- `P'_{n+2} - P'_n = (2n+3) P_{n+1}`. -/
theorem dLg_two (n : Nat) (x : ℝ) : dLg (n + 2) x = dLg n x + (2 * n + 3) * Lg (n + 1) x := by
  have hB := (dLg_ids x n).1
  have hC := (dLg_ids x (n + 1)).2
  push_cast at hC
  linear_combination hC + hB

theorem Lg_one : ∀ n, Lg n 1 = 1
  | 0 => rfl
  | 1 => rfl
  | n + 2 => by rw [Lg, Lg_one n, Lg_one (n + 1)]; field_simp; ring

theorem Lg_neg_one : ∀ n, Lg n (-1) = (-1) ^ n
  | 0 => rfl
  | 1 => by simp [Lg]
  | n + 2 => by rw [Lg, Lg_neg_one n, Lg_neg_one (n + 1), pow_add, pow_succ]; field_simp; ring

/-- `P'_n` as a sum of Legendre polynomials. -/
theorem dLg_sum (x : ℝ) : ∀ n, dLg n x = ∑ k ∈ range n, if (n - k) % 2 = 1 then (2 * k + 1) * Lg k x else 0
  | 0 => by simp [dLg]
  | 1 => by simp [dLg, Lg]
  | n + 2 => by
    have e : ∀ k ∈ range n, (if (n + 2 - k) % 2 = 1 then (2 * (k : ℝ) + 1) * Lg k x else 0) =
        if (n - k) % 2 = 1 then (2 * k + 1) * Lg k x else 0 := fun k hk => by
      have := mem_range.1 hk
      rw [show (n + 2 - k) % 2 = (n - k) % 2 by omega]
    rw [dLg_two, dLg_sum x n, sum_range_succ, sum_range_succ, if_neg (by omega : ¬ (n + 2 - n) % 2 = 1),
      if_pos (by omega : (n + 2 - (n + 1)) % 2 = 1), sum_congr rfl e]
    push_cast
    ring

/-- The polynomials of the library are the normalised Legendre polynomials. -/
theorem leg_p (x : ℝ) : ∀ n, legFam.p n x = √(2 * n + 1) * Lg n x
  | 0 => by simp [legFam, Lg]
  | 1 => by
    simp only [Fam.p, legFam, Lg]; push_cast; rw [zero_add, one_mul]; norm_num
  | n + 2 => by
    rw [Fam.p, leg_p x n, leg_p x (n + 1), Lg]
    simp only [legFam]
    push_cast
    have e1 : (4 * (((n : ℝ) + 2) * (n + 2)) - 1) = (2 * (n + 2) + 1) * (2 * (n + 1) + 1) := by ring
    have e2 : (2 * ((n : ℝ) + 2) - 3) = 2 * n + 1 := by ring
    have h1 : (0 : ℝ) ≤ 2 * (n + 2) + 1 := by positivity
    have h2 : (0 : ℝ) ≤ 2 * (n + 1) + 1 := by positivity
    have h3 : √(2 * (n : ℝ) + 1) ≠ 0 := (Real.sqrt_pos.2 (by positivity)).ne'
    have h4 : (n + 2 : ℝ) ≠ 0 := by positivity
    rw [e1, e2, Real.sqrt_mul h1]
    have h5 := Real.mul_self_sqrt h2
    field_simp
    rw [show (2 * ((n : ℝ) + 1) + 1) = 2 * (n + 1) + 1 from rfl] at h5
    linear_combination (x * Lg (n + 1) x * √(2 * ((n : ℝ) + 2) + 1)) * h5

/-- The derivatives of the library's Legendre polynomials in terms of these polynomials. -/
theorem dp_leg (x : ℝ) (n : Nat) :
    dp legFam n x = ∑ k ∈ range n, if (n - k) % 2 = 1 then √(2 * n + 1) * √(2 * k + 1) * legFam.p k x else 0 := by
  have h : dp legFam n x = √(2 * n + 1) * dLg n x := by
    have h1 := p_hasDerivAt legFam x n
    have h2 := (Lg_hasDerivAt x n).const_mul √(2 * (n : ℝ) + 1)
    simp only [leg_p] at h1
    exact h1.unique h2
  rw [h, dLg_sum, mul_sum]
  refine sum_congr rfl (fun k _ => ?_)
  split
  · have h5 := Real.mul_self_sqrt (show (0 : ℝ) ≤ 2 * k + 1 by positivity)
    rw [leg_p]
    linear_combination (-√(2 * (n : ℝ) + 1) * Lg k x) * h5
  · rw [mul_zero]

/-- Recurrence coefficients of the orthonormal Legendre polynomials. -/
noncomputable def alpha (n : Nat) : ℝ := n / √(4 * (n * n) - 1)

theorem alpha_zero : alpha 0 = 0 := by simp [alpha]

theorem alpha_pos (n : Nat) : 0 < alpha (n + 1) := by
  refine div_pos (by positivity) (Real.sqrt_pos.2 ?_)
  push_cast
  nlinarith [Nat.cast_nonneg (α := ℝ) n]

/-- A symmetric three-term recurrence with vanishing means determines the Gram matrix. -/
theorem favard {al : Nat → ℝ} {G : Nat → Nat → ℝ} (h0 : al 0 = 0) (hp : ∀ n, al (n + 1) ≠ 0)
    (hG : ∀ n, G 0 n = if n = 0 then 1 else 0)
    (hR : ∀ m n, al (m + 1) * G (m + 1) n + al m * G (m - 1) n = al (n + 1) * G m (n + 1) + al n * G m (n - 1)) :
    ∀ m n, G m n = if m = n then 1 else 0 := by
  intro m
  induction m using Nat.strong_induction_on with
  | _ m ih =>
    match m, ih with
    | 0, _ => intro n; rw [hG]; simp [eq_comm]
    | m + 1, ih =>
      intro n
      have hr := hR m n
      rw [ih m (by omega), ih m (by omega)] at hr
      have hm : al m * G (m - 1) n = al m * (if m - 1 = n then 1 else 0) := by
        rcases m with _ | m
        · rw [h0, zero_mul, zero_mul]
        · rw [ih (m + 1 - 1) (by omega)]
      rw [hm] at hr
      apply mul_left_cancel₀ (hp m)
      rw [eq_sub_of_add_eq hr]
      by_cases hn : n = m + 1
      · subst hn
        rw [if_neg (by omega), Nat.add_sub_cancel, if_pos rfl, if_pos rfl]
        rcases m with _ | m
        · rw [h0]; ring
        · rw [if_neg (by omega)]; ring
      · rw [if_neg (Ne.symm hn), mul_zero]
        have e1 : al n * (if m = n - 1 then (1 : ℝ) else 0) = 0 := by
          rcases n with _ | n
          · rw [h0, zero_mul]
          · rw [if_neg (by omega), mul_zero]
        have e2 : al (n + 1) * (if m = n + 1 then (1 : ℝ) else 0) = al m * (if m - 1 = n then (1 : ℝ) else 0) := by
          rcases m with _ | m
          · rw [if_neg (by omega), h0]; ring
          · by_cases hmn : m = n
            · rw [if_pos (by omega), if_pos (by omega), hmn]
            · rw [if_neg (by omega), if_neg (by omega)]; ring
        rw [e1, e2]; ring

theorem p_continuous (fam : Fam ℝ) (n : Nat) : Continuous (fam.p n) :=
  continuous_iff_continuousAt.2 (fun x => (p_hasDerivAt fam x n).continuousAt)

theorem leg_x (x : ℝ) : ∀ n, x * legFam.p n x = alpha (n + 1) * legFam.p (n + 1) x + alpha n * legFam.p (n - 1) x
  | 0 => by
    have h3 : √(3 : ℝ) ≠ 0 := (Real.sqrt_pos.2 (by norm_num)).ne'
    rw [alpha_zero, alpha]
    simp only [Fam.p, legFam]
    norm_num
  | n + 1 => by
    have hs : √(4 * (((n : ℝ) + 2) * (n + 2)) - 1) ≠ 0 := (Real.sqrt_pos.2 (by nlinarith [Nat.cast_nonneg (α := ℝ) n])).ne'
    have hs1 : √(4 * (((n : ℝ) + 1) * (n + 1)) - 1) ≠ 0 := (Real.sqrt_pos.2 (by nlinarith [Nat.cast_nonneg (α := ℝ) n])).ne'
    have h4 : (n + 2 : ℝ) ≠ 0 := by positivity
    have e : legFam.cn (n + 2) * alpha (n + 2) = - alpha (n + 1) := by
      simp only [legFam, alpha]
      push_cast
      have e1 : (4 * (((n : ℝ) + 2) * (n + 2)) - 1) = (2 * (n + 2) + 1) * (2 * n + 3) := by ring
      have e2 : (4 * (((n : ℝ) + 1) * (n + 1)) - 1) = (2 * n + 3) * (2 * n + 1) := by ring
      have e3 : (2 * ((n : ℝ) + 2) - 3) = 2 * n + 1 := by ring
      have q1 : √(2 * ((n : ℝ) + 2) + 1) ≠ 0 := (Real.sqrt_pos.2 (by positivity)).ne'
      have q2 : √(2 * (n : ℝ) + 3) ≠ 0 := (Real.sqrt_pos.2 (by positivity)).ne'
      have q3 : √(2 * (n : ℝ) + 1) ≠ 0 := (Real.sqrt_pos.2 (by positivity)).ne'
      rw [e1, e2, e3, Real.sqrt_mul (by positivity), Real.sqrt_mul (by positivity)]
      field_simp
      ring
    have ea : legFam.an (n + 2) * alpha (n + 2) = 1 := by
      simp only [legFam, alpha]
      push_cast
      rw [div_mul_div_comm, mul_comm, div_self (mul_ne_zero h4 hs)]
    show x * legFam.p (n + 1) x = alpha (n + 2) * legFam.p (n + 2) x + alpha (n + 1) * legFam.p n x
    rw [Fam.p, show legFam.bn (n + 2) = 0 from rfl]
    linear_combination (-x * legFam.p (n + 1) x) * ea - legFam.p n x * e

theorem leg_mean (n : Nat) : (1 / 2) * ∫ x in (-1 : ℝ)..1, legFam.p n x = if n = 0 then 1 else 0 := by
  rcases n with _ | n
  · simp [legFam]; norm_num
  · rw [if_neg (by omega)]
    have h : ∀ x, HasDerivAt (fun y => (Lg (n + 2) y - Lg n y) / (2 * n + 3)) (Lg (n + 1) x) x := fun x => by
      have := ((Lg_hasDerivAt x (n + 2)).sub (Lg_hasDerivAt x n)).div_const (2 * n + 3 : ℝ)
      rw [dLg_two, add_sub_cancel_left, mul_div_cancel_left₀ _ (by positivity)] at this
      exact this
    have hc : Continuous (Lg (n + 1)) := continuous_iff_continuousAt.2 (fun x => (Lg_hasDerivAt x (n + 1)).continuousAt)
    simp only [leg_p]
    rw [intervalIntegral.integral_const_mul,
      intervalIntegral.integral_eq_sub_of_hasDerivAt (fun x _ => h x) (hc.intervalIntegrable _ _)]
    rw [Lg_one, Lg_one, Lg_neg_one, Lg_neg_one, pow_add]
    norm_num

/-- The library's Legendre polynomials are orthonormal with respect to the uniform weight `1/2` on `[-1, 1]`. -/
theorem leg_orthonormal (m n : Nat) : (1 / 2) * ∫ x in (-1 : ℝ)..1, legFam.p m x * legFam.p n x = if m = n then 1 else 0 := by
  refine favard (al := alpha) (G := fun m n => (1 / 2) * ∫ x in (-1 : ℝ)..1, legFam.p m x * legFam.p n x) alpha_zero
    (fun n => (alpha_pos n).ne') (fun n => ?_) (fun m n => ?_) m n
  · have : ∀ x, legFam.p 0 x * legFam.p n x = legFam.p n x := fun x => by simp [legFam]
    simp only [this]
    exact leg_mean n
  · have hi : ∀ i j, IntervalIntegrable (fun x => legFam.p i x * legFam.p j x) MeasureTheory.volume (-1) 1 := fun i j =>
      ((p_continuous legFam i).mul (p_continuous legFam j)).intervalIntegrable _ _
    have e1 : ∫ x in (-1 : ℝ)..1, x * (legFam.p m x * legFam.p n x) = alpha (m + 1) * (∫ x in (-1 : ℝ)..1, legFam.p (m + 1) x * legFam.p n x) +
        alpha m * ∫ x in (-1 : ℝ)..1, legFam.p (m - 1) x * legFam.p n x := by
      rw [← intervalIntegral.integral_const_mul, ← intervalIntegral.integral_const_mul,
        ← intervalIntegral.integral_add ((hi _ _).const_mul _) ((hi _ _).const_mul _)]
      exact intervalIntegral.integral_congr (fun x _ => by
        rw [← mul_assoc, leg_x]; ring)
    have e2 : ∫ x in (-1 : ℝ)..1, x * (legFam.p m x * legFam.p n x) = alpha (n + 1) * (∫ x in (-1 : ℝ)..1, legFam.p m x * legFam.p (n + 1) x) +
        alpha n * ∫ x in (-1 : ℝ)..1, legFam.p m x * legFam.p (n - 1) x := by
      rw [← intervalIntegral.integral_const_mul, ← intervalIntegral.integral_const_mul,
        ← intervalIntegral.integral_add ((hi _ _).const_mul _) ((hi _ _).const_mul _)]
      exact intervalIntegral.integral_congr (fun x _ => by
        rw [mul_left_comm, leg_x]; ring)
    linear_combination (1 / 2) * (e2 - e1)

end C3.Poly

/- Discrete orthogonality of cosines on the Clenshaw-Curtis nodes, and integrals of Chebyshev polynomials. -/
import Mathlib.Analysis.SpecialFunctions.Trigonometric.Basic
import Mathlib.Analysis.SpecialFunctions.Trigonometric.Chebyshev.Basic
import Mathlib.Analysis.SpecialFunctions.Integrals.Basic
import Mathlib.Analysis.Calculus.Deriv.Polynomial
import Mathlib.RingTheory.Polynomial.Chebyshev
import Mathlib.Topology.Algebra.Polynomial

namespace C3.Quad
open Finset Real

/-- The sum over the nodes `i = 0..n` with half weight at the ends. -/
noncomputable def trapSum (n : Nat) (f : Nat → ℝ) : ℝ := ∑ i ∈ range n, (f i + f (i + 1)) / 2

theorem trapSum_add (n : Nat) (f g : Nat → ℝ) : trapSum n (fun i => f i + g i) = trapSum n f + trapSum n g := by
  rw [trapSum, trapSum, trapSum, ← sum_add_distrib]; exact sum_congr rfl fun i _ => by ring

theorem trapSum_mul (n : Nat) (c : ℝ) (f : Nat → ℝ) : trapSum n (fun i => c * f i) = c * trapSum n f := by
  rw [trapSum, trapSum, mul_sum]; exact sum_congr rfl fun i _ => by ring

theorem trapSum_sum (n : Nat) {ι : Type} (s : Finset ι) (f : ι → Nat → ℝ) :
    trapSum n (fun i => ∑ j ∈ s, f j i) = ∑ j ∈ s, trapSum n (f j) := by
  unfold trapSum
  rw [sum_comm]
  exact sum_congr rfl fun i _ => by rw [← sum_add_distrib, sum_div]

/-- As a sum over all nodes with end weights one half. -/
theorem trapSum_eq {n : Nat} (hn : 1 ≤ n) (f : Nat → ℝ) :
    trapSum n f = ∑ i ∈ range (n + 1), (if i = 0 ∨ i = n then 1 / 2 else 1) * f i := by
  obtain ⟨n, rfl⟩ : ∃ m, n = m + 1 := ⟨n - 1, by omega⟩
  have h : ∀ m, ∑ i ∈ range (m + 1), (f i + f (i + 1)) / 2 = f 0 / 2 + ∑ i ∈ range m, f (i + 1) + f (m + 1) / 2 := by
    intro m
    induction m with
    | zero => simp; ring
    | succ m ih => rw [sum_range_succ, ih, sum_range_succ _ m]; ring
  rw [trapSum, h, sum_range_succ, sum_range_succ', if_pos (by omega), if_pos (by omega),
    show ∑ i ∈ range n, (if i + 1 = 0 ∨ i + 1 = n + 1 then 1 / 2 else 1) * f (i + 1) = ∑ i ∈ range n, f (i + 1) from
      sum_congr rfl (fun i hi => by have := mem_range.1 hi; rw [if_neg (show ¬(i + 1 = 0 ∨ i + 1 = n + 1) by omega), one_mul])]
  ring

theorem trapSum_cos_mul (n : Nat) (a : ℝ) : 2 * sin (a / 2) * trapSum n (fun i => cos (i * a)) = sin (n * a) * cos (a / 2) := by
  rw [trapSum, mul_sum]
  induction n with
  | zero => simp
  | succ n ih =>
    rw [sum_range_succ, ih]
    have e1 : cos ((n : ℝ) * a) + cos (((n + 1 : Nat) : ℝ) * a) = 2 * cos ((n : ℝ) * a + a / 2) * cos (a / 2) := by
      rw [cos_add_cos, show ((n : ℝ) * a + ((n + 1 : Nat) : ℝ) * a) / 2 = (n : ℝ) * a + a / 2 by push_cast; ring,
        show ((n : ℝ) * a - ((n + 1 : Nat) : ℝ) * a) / 2 = -(a / 2) by push_cast; ring, cos_neg]
    have e2 : sin (((n + 1 : Nat) : ℝ) * a) - sin ((n : ℝ) * a) = 2 * sin (a / 2) * cos ((n : ℝ) * a + a / 2) := by
      rw [sin_sub_sin]; congr 2
      · congr 1; push_cast; ring
      · push_cast; ring
    rw [e1]
    linear_combination -cos (a / 2) * e2

/-- The cosine of a multiple of the mesh angle sums to zero unless the multiple is one of `2n`. -/
theorem trapSum_cos {n : Nat} (hn : 1 ≤ n) (m : Nat) :
    trapSum n (fun i => cos (m * (i * π / n))) = if 2 * n ∣ m then (n : ℝ) else 0 := by
  have hn0 : (n : ℝ) ≠ 0 := by positivity
  have e : (fun i : Nat => cos (m * (i * π / n))) = fun i : Nat => cos (i * (m * π / n)) := by
    funext i; congr 1; ring
  rw [e]
  by_cases h : 2 * n ∣ m
  · obtain ⟨k, rfl⟩ := h
    rw [if_pos (dvd_mul_right _ _)]
    have h1 : ∀ i : Nat, cos ((i : ℝ) * (((2 * n * k : Nat) : ℝ) * π / n)) = 1 := by
      intro i
      rw [show (i : ℝ) * (((2 * n * k : Nat) : ℝ) * π / n) = ((i * k : Nat) : ℝ) * (2 * π) by push_cast; field_simp]
      exact cos_nat_mul_two_pi _
    simp only [trapSum, h1]
    simp
  · rw [if_neg h]
    have hs : sin ((m : ℝ) * π / n / 2) ≠ 0 := by
      intro h0
      obtain ⟨k, hk⟩ := sin_eq_zero_iff.1 h0
      apply h
      have h2 : ((m : ℤ) : ℝ) = ((2 * n * k : ℤ) : ℝ) := by
        push_cast
        have : (k : ℝ) * π * (2 * n) = m * π := by rw [hk]; field_simp
        have hp := pi_ne_zero
        exact mul_right_cancel₀ hp (by linear_combination -this)
      have h3 : (m : ℤ) = 2 * n * k := by exact_mod_cast h2
      have : ((2 * n : Nat) : ℤ) ∣ (m : ℤ) := ⟨k, by push_cast; exact h3⟩
      exact_mod_cast this
    have e2 := trapSum_cos_mul n ((m : ℝ) * π / n)
    rw [show (n : ℝ) * ((m : ℝ) * π / n) = m * π by field_simp, sin_nat_mul_pi, zero_mul] at e2
    exact (mul_eq_zero.1 e2).resolve_left (mul_ne_zero two_ne_zero hs)

/-- Discrete orthogonality of the cosines of orders up to `n`. -/
theorem trapSum_cos_cos {n : Nat} (hn : 1 ≤ n) {j k : Nat} (hj : j ≤ n) (hk : k ≤ n) :
    trapSum n (fun i => cos (j * (i * π / n)) * cos (k * (i * π / n))) =
      if j = k then (if j = 0 ∨ j = n then (n : ℝ) else n / 2) else 0 := by
  wlog hjk : k ≤ j generalizing j k with H
  · have := H hk hj (by omega)
    rw [show (fun i : Nat => cos (j * (i * π / n)) * cos (k * (i * π / n))) = fun i : Nat => cos (k * (i * π / n)) * cos (j * (i * π / n)) by
      funext i; ring, this]
    by_cases h : j = k
    · subst h; rfl
    · rw [if_neg h, if_neg (Ne.symm h)]
  have e : (fun i : Nat => cos (j * (i * π / n)) * cos (k * (i * π / n))) =
      fun i : Nat => 1 / 2 * cos (((j + k : Nat) : ℝ) * (i * π / n)) + 1 / 2 * cos (((j - k : Nat) : ℝ) * (i * π / n)) := by
    funext i
    rw [Nat.cast_sub hjk, Nat.cast_add, add_mul, sub_mul, cos_add, cos_sub]; ring
  rw [e, trapSum_add, trapSum_mul, trapSum_mul, trapSum_cos hn, trapSum_cos hn]
  by_cases h : j = k
  · subst h
    rw [if_pos rfl, Nat.sub_self, if_pos (dvd_zero _)]
    by_cases h0 : j = 0
    · subst h0; simp; ring
    · by_cases hn' : j = n
      · subst hn'
        rw [if_pos (show 2 * j ∣ j + j by rw [two_mul]), if_pos (Or.inr rfl)]; ring
      · rw [if_neg (fun c => by have := Nat.le_of_dvd (by omega) c; omega), if_neg (by omega)]; ring
  · rw [if_neg h, if_neg (fun c => by have := Nat.le_of_dvd (by omega) c; omega),
      if_neg (fun c => by have := Nat.le_of_dvd (by omega) c; omega)]; ring

open Polynomial.Chebyshev in
/-- Integral of a Chebyshev polynomial over the reference interval. -/
theorem integral_T (k : Nat) : ∫ x in (-1 : ℝ)..1, (T ℝ k).eval x = if k % 2 = 0 then 2 / (1 - (k : ℝ) ^ 2) else 0 := by
  have ftc : ∀ q : Polynomial ℝ, ∫ x in (-1 : ℝ)..1, (Polynomial.derivative q).eval x = q.eval 1 - q.eval (-1) := fun q =>
    intervalIntegral.integral_eq_sub_of_hasDerivAt (fun x _ => q.hasDerivAt x) ((Polynomial.derivative q).continuous.intervalIntegrable _ _)
  have t1 : ∀ n : ℤ, (T ℝ n).eval 1 = 1 := fun n => by simp
  have tm : ∀ n : Nat, (T ℝ n).eval (-1) = (-1 : ℝ) ^ n := by
    intro n
    have := T_real_cos π n
    rw [cos_pi] at this
    rw [this]
    push_cast
    exact cos_nat_mul_pi n
  match k with
  | 0 => simp; norm_num
  | 1 => simp
  | k + 2 =>
    have hd : T ℝ ((k + 2 : Nat) : ℤ) = Polynomial.derivative (Polynomial.C (1 / (2 * ((k : ℝ) + 3))) * T ℝ ((k + 3 : Nat) : ℤ)
        - Polynomial.C (1 / (2 * ((k : ℝ) + 1))) * T ℝ ((k + 1 : Nat) : ℤ)) := by
      rw [Polynomial.derivative_sub, Polynomial.derivative_C_mul, Polynomial.derivative_C_mul, T_derivative_eq_U, T_derivative_eq_U]
      have e1 : (((k + 3 : Nat) : ℤ) : Polynomial ℝ) = Polynomial.C ((k : ℝ) + 3) := by
        rw [Polynomial.C_add, show (Polynomial.C (3 : ℝ)) = 3 from map_ofNat _ 3]; push_cast; simp
      have e2 : (((k + 1 : Nat) : ℤ) : Polynomial ℝ) = Polynomial.C ((k : ℝ) + 1) := by push_cast; simp
      rw [e1, e2, ← mul_assoc, ← mul_assoc, ← Polynomial.C_mul, ← Polynomial.C_mul,
        show 1 / (2 * ((k : ℝ) + 3)) * (k + 3) = 1 / 2 by field_simp, show 1 / (2 * ((k : ℝ) + 1)) * (k + 1) = 1 / 2 by field_simp, ← mul_sub]
      have e3 := T_eq_U_sub_X_mul_U ℝ ((k + 2 : Nat) : ℤ)
      have e4 := U_add_two ℝ ((k : ℤ))
      rw [show (((k + 3 : Nat) : ℤ) - 1) = (k : ℤ) + 2 by push_cast; ring, show (((k + 1 : Nat) : ℤ) - 1) = (k : ℤ) by push_cast; ring]
      rw [show (((k + 2 : Nat) : ℤ) - 1) = (k : ℤ) + 1 by push_cast; ring, show (((k + 2 : Nat) : ℤ)) = (k : ℤ) + 2 by push_cast; ring] at e3
      rw [show (((k + 2 : Nat) : ℤ)) = (k : ℤ) + 2 by push_cast; ring]
      have e5 : (Polynomial.C (1 / 2 : ℝ)) * 2 = 1 := by
        rw [show (2 : Polynomial ℝ) = Polynomial.C 2 from (map_ofNat _ 2).symm, ← Polynomial.C_mul]; norm_num
      rw [e3, e4]
      linear_combination (-(Polynomial.X * U ℝ ((k : ℤ) + 1)) + U ℝ (k : ℤ)) * e5 + 0 * e4
    rw [hd, ftc]
    simp only [Polynomial.eval_sub, Polynomial.eval_mul, Polynomial.eval_C, t1, tm]
    have h1 : ((k : ℝ) + 3) ≠ 0 := by positivity
    have h2 : ((k : ℝ) + 1) ≠ 0 := by positivity
    have h3 : 1 - ((k + 2 : Nat) : ℝ) ^ 2 ≠ 0 := by
      rw [show 1 - ((k + 2 : Nat) : ℝ) ^ 2 = -(((k : ℝ) + 3) * (k + 1)) by push_cast; ring]
      exact neg_ne_zero.2 (mul_ne_zero h1 h2)
    by_cases hp : (k + 2) % 2 = 0
    · rw [if_pos hp, Odd.neg_one_pow (Nat.odd_iff.2 (by omega)), Odd.neg_one_pow (Nat.odd_iff.2 (by omega))]
      rw [show 1 - ((k + 2 : Nat) : ℝ) ^ 2 = -(((k : ℝ) + 3) * (k + 1)) by push_cast; ring]
      field_simp; ring
    · rw [if_neg hp, Even.neg_one_pow (Nat.even_iff.2 (by omega)), Even.neg_one_pow (Nat.even_iff.2 (by omega))]; ring

end C3.Quad

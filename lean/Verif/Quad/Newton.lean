/-
C69: trapezoid and Simpson weights. Specification: exactness for affine and cubic functions.
-/
import Verif.Quad.Model
import Verif.Poly.AlgProps
import Mathlib.Analysis.SpecialFunctions.Integrals.Basic

set_option linter.unusedSectionVars false

namespace C3.Quad
open Finset
open C3.Poly (forR_window getD_of_ge)

theorem getD_set'' {l : List ℝ} {i : Nat} (hi : i < l.length) (v : ℝ) (k : Nat) : (l.set i v).getD k 0 = if k = i then v else l.getD k 0 := by
  by_cases hk : k = i
  · subst hk
    rw [if_pos rfl, List.getD_eq_getElem?_getD, List.getElem?_set_self hi]; rfl
  · rw [if_neg hk, List.getD_eq_getElem?_getD, List.getElem?_set_ne (Ne.symm hk), ← List.getD_eq_getElem?_getD]

/-- The trapezoid weights: half the spacing at the ends, the spacing inside. -/
theorem trapW_value {N : Nat} (hN : 2 ≤ N) (h : ℝ) : ∃ w, trapW N h = .ok w ∧ w.length = N ∧
    ∀ i < N, w.getD i 0 = if i = 0 ∨ i = N - 1 then h / 2 else h := by
  obtain ⟨d, e, l, v, o⟩ := forR_window (lo := 1) (hi := N - 1) (a := (List.replicate N (0 : ℝ)).set 0 (1 / 2 * h))
    (body := fun ii w => wr w ii (1 * h)) (fun _ _ => 1 * h) (by omega) (by simp)
    (fun i h1 h2 b hb => by rw [List.length_set, List.length_replicate] at hb; rw [wr_ok _ (by omega)])
  rw [List.length_set, List.length_replicate] at l
  refine ⟨_, by rw [trapW, wr_ok _ (by simp; omega), bind_ok, e, bind_ok, wr_ok _ (by omega)], by rw [List.length_set, l], fun i hi => ?_⟩
  rw [getD_set'' (by omega)]
  by_cases h1 : i = N - 1
  · rw [if_pos h1, if_pos (Or.inr h1)]; ring
  · rw [if_neg h1]
    by_cases h0 : i = 0
    · rw [o i (by omega), getD_set'' (by simp; omega), if_pos h0, if_pos (Or.inl h0)]; ring
    · rw [v i (by omega) (by omega), if_neg (by omega)]; ring

theorem integral_cubic (a b c0 c1 c2 c3 : ℝ) : ∫ x in a..b, (c0 + c1 * x + c2 * x ^ 2 + c3 * x ^ 3) =
    (c0 * b + c1 * b ^ 2 / 2 + c2 * b ^ 3 / 3 + c3 * b ^ 4 / 4) - (c0 * a + c1 * a ^ 2 / 2 + c2 * a ^ 3 / 3 + c3 * a ^ 4 / 4) := by
  refine intervalIntegral.integral_eq_sub_of_hasDerivAt (f := fun x => c0 * x + c1 * x ^ 2 / 2 + c2 * x ^ 3 / 3 + c3 * x ^ 4 / 4)
    (fun x _ => ?_) (by apply Continuous.intervalIntegrable; fun_prop)
  refine ((((hasDerivAt_id x).const_mul c0).add (((hasDerivAt_pow 2 x).const_mul c1).div_const 2)).add
    (((hasDerivAt_pow 3 x).const_mul c2).div_const 3)).add (((hasDerivAt_pow 4 x).const_mul c3).div_const 4) |>.congr_deriv ?_
  push_cast; ring

/-- The weighted sum with the trapezoid weights is the integral for every affine function. -/
theorem trapW_exact {N : Nat} (hN : 2 ≤ N) (a h c0 c1 : ℝ) : ∃ w, trapW N h = .ok w ∧ w.length = N ∧
    ∑ i ∈ range N, w.getD i 0 * (c0 + c1 * (a + i * h)) = ∫ x in a..a + ((N - 1 : Nat) : ℝ) * h, (c0 + c1 * x) := by
  obtain ⟨w, e, l, v⟩ := trapW_value hN h
  refine ⟨w, e, l, ?_⟩
  obtain ⟨m, rfl⟩ : ∃ m, N = m + 2 := ⟨N - 2, by omega⟩
  have hs : ∀ m : Nat, h / 2 * (c0 + c1 * a) + ∑ i ∈ range m, h * (c0 + c1 * (a + ((i + 1 : Nat) : ℝ) * h))
      + h / 2 * (c0 + c1 * (a + ((m + 1 : Nat) : ℝ) * h)) = (c0 * (a + ((m + 1 : Nat) : ℝ) * h) + c1 * (a + ((m + 1 : Nat) : ℝ) * h) ^ 2 / 2)
        - (c0 * a + c1 * a ^ 2 / 2) := by
    intro m
    induction m with
    | zero => simp; ring
    | succ m ih => rw [sum_range_succ]; push_cast at ih ⊢; linear_combination ih
  have e1 : ∑ i ∈ range (m + 2), w.getD i 0 * (c0 + c1 * (a + i * h)) = h / 2 * (c0 + c1 * a) +
      ∑ i ∈ range m, h * (c0 + c1 * (a + ((i + 1 : Nat) : ℝ) * h)) + h / 2 * (c0 + c1 * (a + ((m + 1 : Nat) : ℝ) * h)) := by
    rw [sum_range_succ, sum_range_succ', v (m + 1) (by omega), v 0 (by omega), if_pos (by omega), if_pos (by omega)]
    rw [sum_congr rfl (fun i hi => by have := mem_range.1 hi; rw [v (i + 1) (by omega), if_neg (by omega)])]
    push_cast; ring
  have e2 := integral_cubic a (a + ((m + 1 : Nat) : ℝ) * h) c0 c1 0 0
  simp only [zero_mul, add_zero] at e2
  rw [e1, hs, show m + 2 - 1 = m + 1 by omega, e2]
  ring

/-- The Simpson weights. -/
theorem simpsonW_value {N : Nat} (hN : 3 ≤ N) (h : ℝ) : ∃ w, simpsonW N h = .ok w ∧ w.length = N ∧
    ∀ i < N, w.getD i 0 = if i = N - 1 then (if N % 2 = 0 then h / 2 else h / 3)
      else if i = N - 2 ∧ N % 2 = 0 then 5 / 6 * h
      else if i = 0 then h / 3 else if i % 2 = 0 then 2 / 3 * h else 4 / 3 * h := by
  obtain ⟨d, e, l, v, o⟩ := forR_window (lo := 1) (hi := N - 1) (a := (List.replicate N (0 : ℝ)).set 0 (1 / 3 * h))
    (body := fun ii w => if ii % 2 = 0 then wr w ii (2 / 3 * h) else wr w ii (4 / 3 * h))
    (fun ii _ => if ii % 2 = 0 then 2 / 3 * h else 4 / 3 * h) (by omega) (by simp)
    (fun i h1 h2 b hb => by
      rw [List.length_set, List.length_replicate] at hb
      by_cases hp : i % 2 = 0
      · rw [if_pos hp, if_pos hp, wr_ok _ (by omega)]
      · rw [if_neg hp, if_neg hp, wr_ok _ (by omega)])
  rw [List.length_set, List.length_replicate] at l
  have hd : ∀ i < N - 1, d.getD i 0 = if i = 0 then h / 3 else if i % 2 = 0 then 2 / 3 * h else 4 / 3 * h := by
    intro i hi
    by_cases h0 : i = 0
    · rw [o i (by omega), getD_set'' (by simp; omega), if_pos h0, if_pos h0]; ring
    · rw [v i (by omega) hi, if_neg h0]
  by_cases hp : N % 2 = 0
  · refine ⟨_, by rw [simpsonW, wr_ok _ (by simp; omega), bind_ok, e, bind_ok, if_pos hp, wr_ok _ (by omega), bind_ok,
      wr_ok _ (by rw [List.length_set]; omega)], by rw [List.length_set, List.length_set, l], fun i hi => ?_⟩
    rw [getD_set'' (by rw [List.length_set]; omega), getD_set'' (by omega)]
    by_cases h1 : i = N - 1
    · rw [if_neg (by omega), if_pos h1, if_pos h1, if_pos hp]; ring
    · rw [if_neg h1, if_neg h1]
      by_cases h2 : i = N - 2
      · rw [if_pos h2, if_pos ⟨h2, hp⟩]; ring
      · rw [if_neg h2, if_neg (fun c => h2 c.1), hd i (by omega)]
  · refine ⟨_, by rw [simpsonW, wr_ok _ (by simp; omega), bind_ok, e, bind_ok, if_neg hp, wr_ok _ (by omega)], by rw [List.length_set, l],
      fun i hi => ?_⟩
    rw [getD_set'' (by omega)]
    by_cases h1 : i = N - 1
    · rw [if_pos h1, if_pos h1, if_neg hp]; ring
    · rw [if_neg h1, if_neg h1, if_neg (fun c => hp c.2), hd i (by omega)]

/-- Simpson's rule as a sum over pairs of intervals. -/
theorem simpson_sum (h : ℝ) (f : Nat → ℝ) (m : Nat) :
    ∑ i ∈ range (2 * (m + 1)), (if i = 0 then h / 3 else if i % 2 = 0 then 2 / 3 * h else 4 / 3 * h) * f i + h / 3 * f (2 * (m + 1))
      = ∑ j ∈ range (m + 1), h / 3 * (f (2 * j) + 4 * f (2 * j + 1) + f (2 * j + 2)) := by
  induction m with
  | zero => simp [sum_range_succ]; ring
  | succ m ih =>
    rw [sum_range_succ _ (m + 1), ← ih, show 2 * (m + 1 + 1) = 2 * (m + 1) + 1 + 1 by ring, sum_range_succ, sum_range_succ,
      if_neg (show ¬2 * (m + 1) = 0 by omega), if_pos (show 2 * (m + 1) % 2 = 0 by omega), if_neg (show ¬2 * (m + 1) + 1 = 0 by omega),
      if_neg (show ¬(2 * (m + 1) + 1) % 2 = 0 by omega)]
    ring

/-- With an odd number of points the weighted sum with the Simpson weights is the integral for every cubic. -/
theorem simpsonW_exact_odd {m : Nat} (hm : 1 ≤ m) (a h c0 c1 c2 c3 : ℝ) : ∃ w, simpsonW (2 * m + 1) h = .ok w ∧ w.length = 2 * m + 1 ∧
    ∑ i ∈ range (2 * m + 1), w.getD i 0 * (c0 + c1 * (a + i * h) + c2 * (a + i * h) ^ 2 + c3 * (a + i * h) ^ 3)
      = ∫ x in a..a + (2 * m : Nat) * h, (c0 + c1 * x + c2 * x ^ 2 + c3 * x ^ 3) := by
  obtain ⟨w, e, l, v⟩ := simpsonW_value (N := 2 * m + 1) (by omega) h
  refine ⟨w, e, l, ?_⟩
  obtain ⟨m, rfl⟩ : ∃ k, m = k + 1 := ⟨m - 1, by omega⟩
  have e1 := simpson_sum h (fun i => c0 + c1 * (a + i * h) + c2 * (a + i * h) ^ 2 + c3 * (a + i * h) ^ 3) m
  rw [sum_range_succ, v _ (by omega), if_pos (by omega), if_neg (by omega),
    sum_congr rfl (fun i hi => by
      have := mem_range.1 hi
      rw [v i (by omega), if_neg (by omega), if_neg (by omega)]), e1, integral_cubic]
  have : ∀ m : Nat, ∑ j ∈ range m, h / 3 * ((c0 + c1 * (a + ((2 * j : Nat) : ℝ) * h) + c2 * (a + ((2 * j : Nat) : ℝ) * h) ^ 2 + c3 * (a + ((2 * j : Nat) : ℝ) * h) ^ 3)
      + 4 * (c0 + c1 * (a + ((2 * j + 1 : Nat) : ℝ) * h) + c2 * (a + ((2 * j + 1 : Nat) : ℝ) * h) ^ 2 + c3 * (a + ((2 * j + 1 : Nat) : ℝ) * h) ^ 3)
      + (c0 + c1 * (a + ((2 * j + 2 : Nat) : ℝ) * h) + c2 * (a + ((2 * j + 2 : Nat) : ℝ) * h) ^ 2 + c3 * (a + ((2 * j + 2 : Nat) : ℝ) * h) ^ 3))
      = (c0 * (a + (2 * m : Nat) * h) + c1 * (a + (2 * m : Nat) * h) ^ 2 / 2 + c2 * (a + (2 * m : Nat) * h) ^ 3 / 3 + c3 * (a + (2 * m : Nat) * h) ^ 4 / 4)
        - (c0 * a + c1 * a ^ 2 / 2 + c2 * a ^ 3 / 3 + c3 * a ^ 4 / 4) := by
    intro m
    induction m with
    | zero => simp
    | succ m ih => rw [sum_range_succ, ih]; push_cast; ring
  exact this (m + 1)

/-- With an even number of points, at least four, the last interval is treated by the trapezoid rule: exact for affine functions. -/
theorem simpsonW_exact_even {m : Nat} (hm : 1 ≤ m) (a h c0 c1 : ℝ) : ∃ w, simpsonW (2 * m + 2) h = .ok w ∧ w.length = 2 * m + 2 ∧
    ∑ i ∈ range (2 * m + 2), w.getD i 0 * (c0 + c1 * (a + i * h)) = ∫ x in a..a + (2 * m + 1 : Nat) * h, (c0 + c1 * x) := by
  obtain ⟨w, e, l, v⟩ := simpsonW_value (N := 2 * m + 2) (by omega) h
  refine ⟨w, e, l, ?_⟩
  obtain ⟨m, rfl⟩ : ∃ k, m = k + 1 := ⟨m - 1, by omega⟩
  have e1 := simpson_sum h (fun i => c0 + c1 * (a + i * h)) m
  have e2 := integral_cubic a (a + (2 * (m + 1) + 1 : Nat) * h) c0 c1 0 0
  simp only [zero_mul, add_zero] at e2
  have w1 := v (2 * (m + 1) + 1) (by omega)
  rw [if_pos (by omega), if_pos (by omega)] at w1
  have w2 := v (2 * (m + 1)) (by omega)
  rw [if_neg (by omega), if_pos (by omega)] at w2
  rw [sum_range_succ, sum_range_succ, w1, w2,
    sum_congr rfl (fun i hi => by
      have := mem_range.1 hi
      rw [v i (by omega), if_neg (by omega), if_neg (by omega)]), e2]
  have : ∀ m : Nat, ∑ j ∈ range m, h / 3 * ((c0 + c1 * (a + ((2 * j : Nat) : ℝ) * h))
      + 4 * (c0 + c1 * (a + ((2 * j + 1 : Nat) : ℝ) * h)) + (c0 + c1 * (a + ((2 * j + 2 : Nat) : ℝ) * h)))
      = (c0 * (a + (2 * m : Nat) * h) + c1 * (a + (2 * m : Nat) * h) ^ 2 / 2) - (c0 * a + c1 * a ^ 2 / 2) := by
    intro m
    induction m with
    | zero => simp
    | succ m ih => rw [sum_range_succ, ih]; push_cast; ring
  have e3 := this (m + 1)
  rw [← e1] at e3
  push_cast at e3 ⊢
  linear_combination e3

/-- Two points: the weights of Simpson's rule do not even sum up to the length of the interval. -/
theorem simpsonW_two_counterexample : simpsonW 2 (1 : ℚ) = .ok [5 / 6, 1 / 2] := by decide +kernel

/-- No point at all: the first weight is written outside the block. -/
theorem trapW_zero_counterexample : trapW 0 (1 : ℚ) = .error .oob ∧ simpsonW 0 (1 : ℚ) = .error .oob := by decide +kernel

example : trapW 4 (1 : ℚ) = .ok [1 / 2, 1, 1, 1 / 2] ∧ simpsonW 5 (3 : ℚ) = .ok [1, 4, 2, 4, 1] ∧
    simpsonW 4 (6 : ℚ) = .ok [2, 8, 5, 3] := by decide +kernel

end C3.Quad

/-
C89: Chebyshev coefficients from values.
-/
import Verif.Fft.Props
import Mathlib.Analysis.SpecialFunctions.Trigonometric.Chebyshev.Basic

namespace C3.Fft

open Finset
open Complex (I exp)

/-- The even extension of `v 0, ..., v N` with period `2N`. -/
def evenExt (N : Nat) (v : Nat → ℝ) (j : Nat) : ℝ := v (if j ≤ N then j else 2 * N - j)

theorem evenExt_flip {N : Nat} (v : Nat → ℝ) {j : Nat} (h : j ≤ 2 * N) : evenExt N v (2 * N - j) = evenExt N v j := by
  unfold evenExt
  congr 1
  split <;> split <;> omega

theorem mirror_ok {N : Nat} (hN : 1 ≤ N) {vals : List ℝ} (hv : N + 1 ≤ vals.length) :
    mirror N vals = .ok ((List.range (2 * N)).map fun j => (evenExt N (fun j => vals.getD j 0) j : ℂ)) := by
  unfold mirror
  rw [rd_getD 0 (by omega), bind_ok, wr_ok _ (by simp; omega), bind_ok]
  obtain ⟨y, h1, h2, h3, h4⟩ := forR_spec (a := 1) (b := N) (s := (List.replicate (2 * N) (0 : ℂ)).set 0 ((vals.getD 0 0 : ℝ) : ℂ))
    (body := fun ii xin => do
      let v ← rd vals ii
      let xin ← wr xin ii (v : ℂ)
      wr xin (2 * N - ii) (v : ℂ))
    (I := fun k (y : List ℂ) => y.length = 2 * N ∧ (∀ i < k, y[i]? = some ((vals.getD i 0 : ℝ) : ℂ)) ∧
      ∀ i, 1 ≤ i → i < k → y[2 * N - i]? = some ((vals.getD i 0 : ℝ) : ℂ)) hN
    ⟨by simp, by intro i hi; obtain rfl : i = 0 := by omega
                 rw [List.getElem?_set_self (by simp; omega)], by intro i h1 h2; omega⟩
    (by
      rintro i hi1 hi2 y ⟨h1, h2, h3⟩
      rw [rd_getD 0 (by omega), bind_ok, wr_ok _ (by omega), bind_ok, wr_ok _ (by simp; omega)]
      refine ⟨_, rfl, by simpa using h1, ?_, ?_⟩
      · intro j hj
        rw [List.getElem?_set_ne (by omega)]
        by_cases c : i = j
        · subst c; rw [List.getElem?_set_self (by omega)]
        · rw [List.getElem?_set_ne c]; exact h2 j (by omega)
      · intro j hj1 hj2
        by_cases c : i = j
        · subst c; rw [List.getElem?_set_self (by simp; omega)]
        · rw [List.getElem?_set_ne (by omega), List.getElem?_set_ne (by omega)]; exact h3 j hj1 (by omega))
  rw [h1, bind_ok, rd_getD 0 (by omega), bind_ok, wr_ok _ (by omega)]
  congr 1
  apply List.ext_getElem?
  intro j
  by_cases c : j < 2 * N
  · rw [List.getElem?_map, List.getElem?_range c]
    by_cases d : N = j
    · subst d; rw [List.getElem?_set_self (by omega)]; simp [evenExt]
    · rw [List.getElem?_set_ne d]
      rcases Nat.lt_or_ge j N with e | e
      · rw [h3 j e]; simp [evenExt, e.le]
      · have := h4 (2 * N - j) (by omega) (by omega)
        rw [show 2 * N - (2 * N - j) = j by omega] at this
        rw [this]
        simp only [evenExt, Option.map_some]
        rw [if_neg (by omega)]
  · rw [List.getElem?_eq_none (by simp; omega), List.getElem?_eq_none (by simpa using c)]

theorem sum_flip {A : Type} [AddCommGroup A] (g : Nat → A) {M : Nat} (h : g M = g 0) : ∑ j ∈ range M, g (M - j) = ∑ j ∈ range M, g j := by
  have h1 := sum_range_reflect (fun j => g (j + 1)) M
  have h2 : ∑ j ∈ range M, g (M - 1 - j + 1) = ∑ j ∈ range M, g (M - j) :=
    sum_congr rfl fun j hj => by rw [show M - 1 - j + 1 = M - j by have := mem_range.1 hj; omega]
  rw [h2] at h1
  rw [h1]
  have h3 := sum_range_succ g M
  have h4 := sum_range_succ' g M
  rw [h3, h] at h4
  exact (add_right_cancel h4).symm

theorem sum_even {N : Nat} (h : Nat → ℝ) (hf : ∀ k ≤ 2 * N, h (2 * N - k) = h k) :
    ∑ k ∈ range (2 * N), h k = 2 * ∑ k ∈ range N, h k + h N - h 0 := by
  have h1 : ∑ k ∈ range (2 * N), h k = ∑ k ∈ range N, h k + ∑ k ∈ range N, h (N + k) := by
    rw [two_mul, sum_range_add]
  have h2 : ∑ k ∈ range N, h (N + k) = ∑ k ∈ range N, h (k + 1) := by
    rw [← sum_range_reflect (fun k => h (k + 1)) N]
    refine sum_congr rfl fun k hk => ?_
    have := mem_range.1 hk
    rw [← hf (N + k) (by omega)]
    congr 1; omega
  have h3 := sum_range_succ h N
  have h4 := sum_range_succ' h N
  rw [h1, h2]
  linarith

/-- The transform of an even real sequence is real and even. -/
theorem dft_even {N : Nat} (hN : 1 ≤ N) (v : Nat → ℝ) (k : Nat) :
    (starRingEnd ℂ) (dft (2 * N) (fun j => (evenExt N v j : ℂ)) k) = dft (2 * N) (fun j => (evenExt N v j : ℂ)) k := by
  have hne : ((2 * N : ℕ) : ℂ) ≠ 0 := Nat.cast_ne_zero.2 (by omega)
  have h0 : exp (-2 * Real.pi * I * (k * (2 * N : ℕ)) / (2 * N : ℕ)) = 1 := by
    rw [Complex.exp_eq_one_iff]
    have h2 : (N : ℂ) ≠ 0 := Nat.cast_ne_zero.2 (by omega)
    exact ⟨-k, by push_cast; field_simp⟩
  have e := sum_flip (fun j : Nat => exp (-2 * Real.pi * I * (k * j) / (2 * N : ℕ)) * (evenExt N v j : ℂ)) (M := 2 * N) (by
    rw [h0]
    have := evenExt_flip (N := N) v (j := 0) (by omega)
    rw [Nat.sub_zero] at this
    rw [this]; simp)
  rw [dft, map_sum, ← e]
  refine sum_congr rfl fun j hj => ?_
  have hj' := mem_range.1 hj
  rw [evenExt_flip v (by omega), map_mul, Complex.conj_ofReal, ← Complex.exp_conj]
  congr 1
  rw [Nat.cast_sub (by omega), show -2 * (Real.pi : ℂ) * I * (k * (((2 * N : ℕ) : ℂ) - j)) / (2 * N : ℕ) =
    -2 * Real.pi * I * (k * (2 * N : ℕ)) / (2 * N : ℕ) + 2 * Real.pi * I * (k * j) / (2 * N : ℕ) by ring, Complex.exp_add, h0, one_mul]
  congr 1
  simp only [map_div₀, map_mul, map_neg, Complex.conj_I, Complex.conj_ofReal, Complex.conj_ofNat, map_natCast]
  ring

theorem dft_flip {N : Nat} (hN : 1 ≤ N) (v : Nat → ℝ) {k : Nat} (hk : k ≤ 2 * N) :
    dft (2 * N) (fun j => (evenExt N v j : ℂ)) (2 * N - k) = dft (2 * N) (fun j => (evenExt N v j : ℂ)) k := by
  rw [← dft_even hN v k, dft, dft, map_sum]
  refine sum_congr rfl fun j _ => ?_
  have hne : (N : ℂ) ≠ 0 := Nat.cast_ne_zero.2 (by omega)
  rw [map_mul, Complex.conj_ofReal, ← Complex.exp_conj]
  congr 1
  rw [Complex.exp_eq_exp_iff_exists_int]
  refine ⟨-j, ?_⟩
  rw [Nat.cast_sub hk]
  simp only [map_div₀, map_mul, map_neg, Complex.conj_I, Complex.conj_ofReal, Complex.conj_ofNat, map_natCast]
  push_cast
  field_simp
  ring

/-- C89: the returned numbers are the coefficients of the Chebyshev polynomial that interpolates the values at the points `cos(pi j/N)`, with the
coefficient of the highest degree first. -/
theorem chebCoeff_actual (nvals : BitVec 64) {m : Nat} (hm : nvals.toNat = 2 ^ m + 1) {vals coeff : List ℝ} (hv : nvals.toNat ≤ vals.length)
    (hc : coeff.length = nvals.toNat) :
    ∃ c, chebCoeff nvals vals coeff = .ok (0, c) ∧ c.length = nvals.toNat ∧
      ∀ j : Nat, j ≤ 2 ^ m → ∑ k ∈ range (2 ^ m + 1), c.getD (2 ^ m - k) 0 * (Polynomial.Chebyshev.T ℝ k).eval (Real.cos (Real.pi * j / (2 ^ m : ℕ))) =
        vals.getD j 0 := by
  have hN1 : (nvals - 1).toNat = 2 ^ m := by
    have : 0 < 2 ^ m := by positivity
    have h2 := nvals.isLt
    rw [BitVec.toNat_sub]
    simp
    omega
  have hN : 1 ≤ 2 ^ m := Nat.one_le_two_pow
  set N := 2 ^ m with hNd
  set V : Nat → ℝ := fun j => vals.getD j 0 with hV
  set y := (List.range (2 * N)).map fun j => (evenExt N V j : ℂ) with hy
  have eN2 : 2 * N = 2 ^ (m + 1) := by rw [hNd, pow_succ]; ring
  obtain ⟨X, h1, h2, h3, -⟩ := fftBase_ok (m + 1) (x := y) (X := List.replicate (2 * N) 0) (ox := 0) (sx := 1) (oX := 0) (sX := 1)
    (by norm_num) (fun j hj => by rw [hy]; simp; omega) (fun j hj => by simp; omega)
  rw [← eN2] at h1 h3
  have hX : ∀ k < 2 * N, X.getD k 0 = dft (2 * N) (fun j => (evenExt N V j : ℂ)) k := by
    intro k hk
    have := h3 k hk
    rw [Nat.zero_add, Nat.mul_one] at this
    rw [List.getD_eq_getElem?_getD, this, Option.getD_some]
    refine sum_congr rfl fun j hj => ?_
    congr 1
    dsimp only
    rw [Nat.zero_add, Nat.mul_one, hy, List.getD_eq_getElem?_getD, List.getElem?_map, List.getElem?_range (mem_range.1 hj)]; rfl
  set g : Nat → ℝ := fun i => (X.getD (N - i) 0).re / N with hg
  have hloop : forN nvals.toNat (fun ii c => do
      let a ← rd X (nvals.toNat - 1 - ii)
      wr c ii (a.re / N)) coeff = .ok ((List.range (N + 1)).map g) := by
    rw [hm]
    refine forN_fill_all g (by omega) ?_
    intro i hi b hb
    rw [rd_getD 0 (by rw [h2]; simp; omega), bind_ok, Nat.add_sub_cancel]
  refine ⟨((((List.range (N + 1)).map g).set 0 (g 0 / 2))).set N (g N / 2), ?_, by simp [hm], ?_⟩
  · have e0 : ((List.range (N + 1)).map g).getD 0 0 = g 0 := by simp
    have eN : ((List.range (N + 1)).map g).getD N 0 = g N := by simp
    unfold chebCoeff
    rw [if_neg (not_not.2 ((isPow2_iff _).2 ⟨m, hN1⟩))]
    dsimp only
    rw [hN1, mirror_ok hN (by omega), bind_ok, h1, bind_ok, hloop, bind_ok, rd_getD 0 (by simp), bind_ok, wr_ok _ (by simp), bind_ok, hm,
      Nat.add_sub_cancel, rd_getD 0 (by simp), bind_ok, wr_ok _ (by simp), bind_ok, e0]
    congr 3
    rw [List.getD_eq_getElem?_getD, List.getElem?_set_ne (by omega), ← List.getD_eq_getElem?_getD, eN]
  · intro j hj
    have hne : ((2 * N : ℕ) : ℂ) ≠ 0 := Nat.cast_ne_zero.2 (by omega)
    have hR : (N : ℝ) ≠ 0 := Nat.cast_ne_zero.2 (by omega)
    set D : Nat → ℂ := dft (2 * N) (fun j => (evenExt N V j : ℂ)) with hD
    set h : Nat → ℝ := fun k => Real.cos (Real.pi * j * k / N) * (D k).re with hh
    have hper : ∀ k ≤ 2 * N, h (2 * N - k) = h k := by
      intro k hk
      rw [hh]
      dsimp only
      rw [hD, dft_flip hN V hk, Nat.cast_sub hk]
      congr 1
      rw [show Real.pi * j * (((2 * N : ℕ) : ℝ) - k) / N = j * (2 * Real.pi) - Real.pi * j * k / N by push_cast; field_simp]
      rw [Real.cos_nat_mul_two_pi_sub]
    have hinv : 2 * N * V j = ∑ k ∈ range (2 * N), h k := by
      have e := idft_dft (N := 2 * N) (fun j => (evenExt N V j : ℂ)) (l := j) (by omega)
      rw [idft, div_eq_iff hne] at e
      have e2 := congrArg Complex.re e
      rw [Complex.re_sum] at e2
      have e3 : evenExt N V j = V j := by rw [evenExt, if_pos hj]
      rw [e3] at e2
      have e4 : ((V j : ℂ) * ((2 * N : ℕ) : ℂ)).re = V j * (2 * N) := by
        rw [← Complex.ofReal_natCast, ← Complex.ofReal_mul, Complex.ofReal_re]; push_cast; ring
      rw [e4] at e2
      rw [mul_comm, ← e2]
      refine sum_congr rfl fun k _ => ?_
      have him : (D k).im = 0 := Complex.conj_eq_iff_im.1 (dft_even hN V k)
      rw [Complex.mul_re, him, mul_zero, sub_zero]
      congr 1
      rw [show 2 * (Real.pi : ℂ) * I * (j * k) / (2 * N : ℕ) = ((Real.pi * j * k / N : ℝ) : ℂ) * I by push_cast; field_simp,
        Complex.exp_ofReal_mul_I_re]
    rw [sum_even h hper] at hinv
    have hT : ∀ k : Nat, (Polynomial.Chebyshev.T ℝ k).eval (Real.cos (Real.pi * j / (N : ℕ))) = Real.cos (Real.pi * j * k / N) := by
      intro k
      rw [Polynomial.Chebyshev.T_real_cos]
      congr 1
      push_cast
      ring
    have hgk : ∀ k ≤ N, g (N - k) * Real.cos (Real.pi * j * k / N) = h k / N := by
      intro k hk
      rw [hg, hh]
      dsimp only
      rw [show N - (N - k) = k by omega, hX k (by omega)]
      ring
    have hck : ∀ k, 0 < k → k < N → (((((List.range (N + 1)).map g).set 0 (g 0 / 2))).set N (g N / 2)).getD (N - k) 0 = g (N - k) := by
      intro k h1 h2
      rw [List.getD_eq_getElem?_getD, List.getElem?_set_ne (by omega), List.getElem?_set_ne (by omega), List.getElem?_map,
        List.getElem?_range (by omega)]; rfl
    have hc0 : (((((List.range (N + 1)).map g).set 0 (g 0 / 2))).set N (g N / 2)).getD (N - 0) 0 = g (N - 0) / 2 := by
      rw [List.getD_eq_getElem?_getD, Nat.sub_zero, List.getElem?_set_self (by simp)]; rfl
    have hcN : (((((List.range (N + 1)).map g).set 0 (g 0 / 2))).set N (g N / 2)).getD (N - N) 0 = g (N - N) / 2 := by
      rw [List.getD_eq_getElem?_getD, Nat.sub_self, List.getElem?_set_ne (by omega), List.getElem?_set_self (by simp)]; rfl
    clear_value N
    obtain ⟨P, rfl⟩ : ∃ P, N = P + 1 := ⟨N - 1, by omega⟩
    rw [sum_range_succ, sum_range_succ']
    have hmid : ∀ k ∈ range P, (((((List.range (P + 1 + 1)).map g).set 0 (g 0 / 2))).set (P + 1) (g (P + 1) / 2)).getD (P + 1 - (k + 1)) 0 *
        (Polynomial.Chebyshev.T ℝ ((k + 1 : ℕ) : ℤ)).eval (Real.cos (Real.pi * j / (P + 1 : ℕ))) = h (k + 1) / (P + 1 : ℕ) := by
      intro k hk
      have := mem_range.1 hk
      rw [hck (k + 1) (by omega) (by omega), hT, hgk (k + 1) (by omega)]
    rw [sum_congr rfl hmid, hT, hT, hc0, hcN]
    have a0 := hgk 0 (by omega)
    have aN := hgk (P + 1) le_rfl
    have hs := sum_range_succ' h P
    rw [hs] at hinv
    have hsd : ∑ k ∈ range P, h (k + 1) / ((P + 1 : ℕ) : ℝ) = (∑ k ∈ range P, h (k + 1)) / ((P + 1 : ℕ) : ℝ) := by
      simp only [div_eq_mul_inv, Finset.sum_mul]
    rw [hsd]
    have : (0 : ℝ) < (P + 1 : ℕ) := by positivity
    have e1 : g (P + 1 - 0) / 2 * Real.cos (Real.pi * j * (0 : ℕ) / (P + 1 : ℕ)) = h 0 / (P + 1 : ℕ) / 2 := by rw [← a0]; ring
    have e2 : g (P + 1 - (P + 1)) / 2 * Real.cos (Real.pi * j * (P + 1 : ℕ) / (P + 1 : ℕ)) = h (P + 1) / (P + 1 : ℕ) / 2 := by rw [← aN]; ring
    rw [e1, e2]
    field_simp
    linarith

/-- The hypotheses can be met: three values. -/
example : (3 : BitVec 64).toNat = 2 ^ 1 + 1 := rfl

/-- Any other number of values is refused with code 1 and the coefficients are left alone (so are they for `nvals = 1`, and, wrapping around, for
`nvals = 0`). -/
theorem chebCoeff_refused {nvals : BitVec 64} (h : ¬∃ m, (nvals - 1).toNat = 2 ^ m) (vals coeff : List ℝ) :
    chebCoeff nvals vals coeff = .ok (1, coeff) := by
  unfold chebCoeff
  rw [if_pos (fun h' => h ((isPow2_iff _).1 h'))]; rfl

/-- The order of the coefficients is the reverse of the usual one: for the values `1, -1` of `x` at `1, -1` the function returns `[1, 0]`, which read
in the order used everywhere else in the library (`coeff[k]` belongs to degree `k`) is the constant one. -/
theorem chebCoeff_order_counterexample : chebCoeff 2 [1, -1] [7, 7] = .ok (0, [1, 0]) := by
  obtain ⟨c, h1, h2, h3⟩ := chebCoeff_actual 2 (m := 0) (vals := [1, -1]) (coeff := [7, 7]) rfl (by simp) (by simp)
  have h2' : c.length = 2 := h2
  obtain ⟨a, b, rfl⟩ : ∃ a b, c = [a, b] := by
    match c, h2' with
    | [a, b], _ => exact ⟨a, b, rfl⟩
  have e0 := h3 0 (by simp)
  have e1 := h3 1 (by simp)
  simp [Finset.sum_range_succ, List.getD] at e0 e1
  change b + a = 1 at e0
  change b + -a = -1 at e1
  rw [h1, show a = 1 by linarith, show b = 0 by linarith]

end C3.Fft

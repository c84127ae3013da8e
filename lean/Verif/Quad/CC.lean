/-
C69: Clenshaw-Curtis, rescaled Clenshaw-Curtis, the rule called Fejer 2, and Chebyshev-Gauss.
Specification: exactness for polynomials.
-/
import Verif.Quad.Newton
import Verif.Quad.CosSum
import Verif.Poly.ApproxProps
import Mathlib.Analysis.SpecialFunctions.Trigonometric.Chebyshev.ChebyshevGauss

set_option linter.unusedSectionVars false

namespace C3.Quad
open Finset Real
open C3.Poly (forR_window forN_window)

/-- Clenshaw-Curtis weight in closed form, `n + 1` points. -/
noncomputable def ccRaw (n i : Nat) : ℝ :=
  1 - ∑ j ∈ range (n / 2), (if 2 * (j + 1) = n then 1 else 2) * cos (2 * ((j + 1 : Nat) : ℝ) * (i * π / n)) / (4 * ((j + 1 : Nat) : ℝ) ^ 2 - 1)

theorem ccPts_ok {N : Nat} (hN : 2 ≤ N) {pts : List ℝ} (hl : pts.length = N) :
    ∃ p, ccPts N pts = .ok p ∧ p.length = N ∧ ∀ i < N, p.getD i 0 = -cos (i * π / ((N - 1 : Nat) : ℝ)) := by
  have hn0 : ((N - 1 : Nat) : ℝ) ≠ 0 := by
    have : 1 ≤ N - 1 := by omega
    positivity
  obtain ⟨d, e, l, v, o⟩ := forR_window (lo := 1) (hi := N - 1) (a := pts)
    (body := fun ii p => wr p ii (cos (π * ((N - 1 - ii : Nat) : ℝ) / ((N - 1 : Nat) : ℝ))))
    (fun ii _ => cos (π * ((N - 1 - ii : Nat) : ℝ) / ((N - 1 : Nat) : ℝ))) (by omega) (by omega)
    (fun i h1 h2 b hb => by rw [wr_ok _ (by omega)])
  have hv : ∀ i, 1 ≤ i → i < N - 1 → d.getD i 0 = -cos (i * π / ((N - 1 : Nat) : ℝ)) := by
    intro i h1 h2
    rw [v i h1 h2, ← cos_pi_sub]
    congr 1
    rw [Nat.cast_sub (show i ≤ N - 1 by omega)]
    field_simp
  have h0 : (-1 : ℝ) = -cos (((0 : Nat) : ℝ) * π / ((N - 1 : Nat) : ℝ)) := by simp
  have h1 : (1 : ℝ) = -cos (((N - 1 : Nat) : ℝ) * π / ((N - 1 : Nat) : ℝ)) := by rw [mul_div_cancel_left₀ _ hn0, cos_pi]; norm_num
  rw [ccPts, e, bind_ok, wr_ok _ (by omega), bind_ok]
  by_cases hp : N % 2 = 1
  · rw [if_pos hp, wr_ok _ (by rw [List.length_set]; omega), bind_ok]; dsimp only
    rw [wr_ok _ (by rw [List.length_set, List.length_set]; omega)]
    refine ⟨_, rfl, by simp only [List.length_set]; omega, fun i hi => ?_⟩
    rw [getD_set'' (by simp only [List.length_set]; omega), getD_set'' (by simp only [List.length_set]; omega), getD_set'' (by omega)]
    by_cases c1 : i = N - 1
    · rw [if_pos c1, c1]; exact h1
    · rw [if_neg c1]
      by_cases c2 : i = (N - 1) / 2
      · rw [if_pos c2]
        have e2 : (i : ℝ) * π / ((N - 1 : Nat) : ℝ) = π / 2 := by
          have : N - 1 = 2 * i := by omega
          rw [this] at hn0 ⊢
          push_cast at hn0 ⊢
          have : (i : ℝ) ≠ 0 := fun c => hn0 (by rw [c, mul_zero])
          field_simp
        rw [e2, cos_pi_div_two, neg_zero]
      · rw [if_neg c2]
        by_cases c3 : i = 0
        · rw [if_pos c3, c3]; exact h0
        · rw [if_neg c3]; exact hv i (by omega) (by omega)
  · rw [if_neg hp, pure_eq_ok, bind_ok]; dsimp only
    rw [wr_ok _ (by rw [List.length_set]; omega)]
    refine ⟨_, rfl, by simp only [List.length_set]; omega, fun i hi => ?_⟩
    rw [getD_set'' (by simp only [List.length_set]; omega), getD_set'' (by omega)]
    by_cases c1 : i = N - 1
    · rw [if_pos c1, c1]; exact h1
    · rw [if_neg c1]
      by_cases c3 : i = 0
      · rw [if_pos c3, c3]; exact h0
      · rw [if_neg c3]; exact hv i (by omega) (by omega)

theorem ccWeight_ok {N ii : Nat} {wts : List ℝ} (hi : ii < wts.length) :
    ccWeight N ii wts = .ok (wts.set ii (ccRaw (N - 1) ii)) := by
  obtain ⟨w, e, h⟩ := forN_spec (n := (N - 1) / 2 + 1 - 1) (s := wts.set ii (1 : ℝ))
    (body := fun j => (fun jj w => do
      let v ← rd w ii
      wr w ii (v - (if 2 * jj = N - 1 then 1 else 2) * Real.cos (2 * jj * (ii * Real.pi / ((N - 1 : Nat) : ℝ))) / (4 * (jj : ℝ) ^ 2 - 1))) (1 + j))
    (I := fun m w => w = wts.set ii (1 - ∑ j ∈ range m, (if 2 * (j + 1) = N - 1 then 1 else 2) *
      cos (2 * ((j + 1 : Nat) : ℝ) * (ii * π / ((N - 1 : Nat) : ℝ))) / (4 * ((j + 1 : Nat) : ℝ) ^ 2 - 1)))
    (by simp)
    (by
      rintro j hj w rfl
      refine ⟨_, by dsimp only; rw [rd_getD 0 (by rw [List.length_set]; exact hi), bind_ok, wr_ok _ (by rw [List.length_set]; exact hi)], ?_⟩
      rw [getD_set'' hi, if_pos rfl, List.set_set, sum_range_succ, Nat.add_comm 1 j]
      congr 1; ring)
  rw [ccWeight, wr_ok _ hi, bind_ok, forR, e, h, Nat.add_sub_cancel, ccRaw]

theorem ccScale_ok {N : Nat} (hN : 2 ≤ N) {wts : List ℝ} (hl : wts.length = N) :
    ∃ w, ccScale N wts = .ok w ∧ w.length = N ∧
      ∀ i < N, w.getD i 0 = (if i = 0 ∨ i = N - 1 then 1 else 2) * wts.getD i 0 / ((N - 1 : Nat) : ℝ) := by
  obtain ⟨d, e, l, v, o⟩ := forR_window (lo := 1) (hi := N - 1) (a := wts.set 0 (wts.getD 0 0 / ((N - 1 : Nat) : ℝ)))
    (body := fun ii w => do
      let v ← rd w ii
      wr w ii (2 * v / ((N - 1 : Nat) : ℝ)))
    (fun ii v => 2 * v / ((N - 1 : Nat) : ℝ)) (by omega) (by rw [List.length_set]; omega)
    (fun i h1 h2 b hb => by rw [List.length_set] at hb; rw [rd_getD 0 (by omega), bind_ok, wr_ok _ (by omega)])
  rw [List.length_set] at l
  rw [ccScale, rd_getD 0 (by omega), bind_ok, wr_ok _ (by omega), bind_ok, e, bind_ok, rd_getD 0 (by omega), bind_ok, wr_ok _ (by omega)]
  refine ⟨_, rfl, by rw [List.length_set]; omega, fun i hi => ?_⟩
  rw [getD_set'' (by omega)]
  by_cases c1 : i = N - 1
  · rw [if_pos c1, if_pos (Or.inr c1), o _ (by omega), getD_set'' (by omega), if_neg (by omega), c1, one_mul]
  · rw [if_neg c1]
    by_cases c0 : i = 0
    · rw [if_pos (Or.inl c0), o _ (by omega), getD_set'' (by omega), if_pos c0, c0, one_mul]
    · rw [if_neg (by omega), v i (by omega) (by omega), getD_set'' (by omega), if_neg c0]

/-- Points and weights of the Clenshaw-Curtis rule. -/
theorem clenshawCurtis_value {N : Nat} (hN : 2 ≤ N) {pts wts : List ℝ} (hp : pts.length = N) (hw : wts.length = N) :
    ∃ p w, clenshawCurtis N pts wts = .ok (p, w) ∧ p.length = N ∧ w.length = N ∧
      (∀ i < N, p.getD i 0 = -cos (i * π / ((N - 1 : Nat) : ℝ))) ∧
      ∀ i < N, w.getD i 0 = (if i = 0 ∨ i = N - 1 then 1 else 2) * ccRaw (N - 1) i / ((N - 1 : Nat) : ℝ) := by
  obtain ⟨p, ep, lp, vp⟩ := ccPts_ok hN hp
  obtain ⟨d, ed, ld, vd, -⟩ := forN_window (n := N) (off := 0) (a := wts) (body := fun ii w => ccWeight N ii w)
    (fun i _ => ccRaw (N - 1) i) (by omega) (fun i hi b hb => by rw [ccWeight_ok (by omega), Nat.zero_add])
  obtain ⟨w, ew, lw, vw⟩ := ccScale_ok hN (ld.trans hw)
  refine ⟨p, w, by rw [clenshawCurtis, if_neg (by omega), if_neg (by omega), ep, bind_ok, ed, bind_ok, ew]; rfl, lp, lw, vp, fun i hi => ?_⟩
  have := vd i hi
  rw [Nat.zero_add] at this
  rw [vw i hi, this]

theorem T_neg_cos (k : Nat) (x : ℝ) : (Polynomial.Chebyshev.T ℝ k).eval (-cos x) = (-1) ^ k * cos (k * x) := by
  rw [← cos_pi_sub, Polynomial.Chebyshev.T_real_cos]
  push_cast
  rw [mul_sub, cos_sub, cos_nat_mul_pi, sin_nat_mul_pi]
  ring

/-- The rule applied to a Chebyshev polynomial of order at most `n`. -/
theorem cc_T {n k : Nat} (hn : 1 ≤ n) (hk : k ≤ n) :
    ∑ i ∈ range (n + 1), ((if i = 0 ∨ i = n then 1 else 2) * ccRaw n i / n) * (Polynomial.Chebyshev.T ℝ k).eval (-cos (i * π / n)) =
      ∫ x in (-1 : ℝ)..1, (Polynomial.Chebyshev.T ℝ k).eval x := by
  have hn0 : (n : ℝ) ≠ 0 := by positivity
  have e1 : ∑ i ∈ range (n + 1), ((if i = 0 ∨ i = n then 1 else 2) * ccRaw n i / n) * (Polynomial.Chebyshev.T ℝ k).eval (-cos (i * π / n))
      = (2 / n) * (-1) ^ k * trapSum n (fun i => ccRaw n i * cos (k * (i * π / n))) := by
    rw [trapSum_eq hn, mul_sum]
    refine sum_congr rfl fun i _ => ?_
    rw [T_neg_cos]
    by_cases h : i = 0 ∨ i = n
    · rw [if_pos h, if_pos h]; ring
    · rw [if_neg h, if_neg h]; ring
  have e2 : (fun i : Nat => ccRaw n i * cos (k * (i * π / n))) = fun i : Nat => 1 * cos (k * (i * π / n)) +
      (-1) * ∑ j ∈ range (n / 2), ((if 2 * (j + 1) = n then 1 else 2) / (4 * ((j + 1 : Nat) : ℝ) ^ 2 - 1)) *
        (cos (((2 * (j + 1) : Nat) : ℝ) * (i * π / n)) * cos (k * (i * π / n))) := by
    funext i
    rw [ccRaw, sub_mul, sum_mul, sub_eq_add_neg, neg_one_mul]
    congr 2
    refine sum_congr rfl fun j _ => ?_
    push_cast; ring
  rw [e1, e2, trapSum_add, trapSum_mul, trapSum_mul, trapSum_sum, integral_T,
    trapSum_cos hn]
  rw [show ∑ j ∈ range (n / 2), trapSum n (fun i => ((if 2 * (j + 1) = n then 1 else 2) / (4 * ((j + 1 : Nat) : ℝ) ^ 2 - 1)) *
        (cos (((2 * (j + 1) : Nat) : ℝ) * (i * π / n)) * cos (k * (i * π / n)))) =
      ∑ j ∈ range (n / 2), if 2 * (j + 1) = k then n / ((k : ℝ) ^ 2 - 1) else 0 from sum_congr rfl fun j hj => by
    have hj' := mem_range.1 hj
    rw [trapSum_mul, trapSum_cos_cos hn (by omega) hk]
    by_cases h : 2 * (j + 1) = k
    · rw [if_pos h, if_pos h]
      have e3 : (4 * ((j + 1 : Nat) : ℝ) ^ 2 - 1) = (k : ℝ) ^ 2 - 1 := by rw [← h]; push_cast; ring
      rw [e3]
      by_cases h2 : 2 * (j + 1) = n
      · rw [if_pos h2, if_pos (Or.inr h2)]; ring
      · rw [if_neg h2, if_neg (by omega)]; ring
    · rw [if_neg h, if_neg h, mul_zero]]
  by_cases hk0 : k = 0
  · subst hk0
    rw [if_pos (dvd_zero _), if_pos rfl, sum_eq_zero (fun j _ => if_neg (by omega))]
    simp
    field_simp
  · rw [if_neg (fun c => by have := Nat.le_of_dvd (by omega) c; omega)]
    by_cases hp : k % 2 = 0
    · rw [if_pos hp, sum_eq_single (k / 2 - 1) (fun j _ hj => if_neg (by omega)) (fun h => absurd (mem_range.2 (by omega)) h),
        if_pos (by omega), Even.neg_one_pow (Nat.even_iff.2 hp)]
      have h2 : 2 ≤ k := by omega
      have h2' : (2 : ℝ) ≤ k := by exact_mod_cast h2
      have h3 : (k : ℝ) ^ 2 - 1 ≠ 0 := by nlinarith
      have h4 : 1 - (k : ℝ) ^ 2 ≠ 0 := by nlinarith
      field_simp
      ring
    · rw [if_neg hp, sum_eq_zero (fun j _ => if_neg (by omega))]; ring

/-- Linear functionals that agree on the Chebyshev polynomials agree on all polynomials of the degree. -/
theorem poly_of_T {N : Nat} {x w : Nat → ℝ} {M : Nat}
    (h : ∀ k < N, ∑ i ∈ range M, w i * (Polynomial.Chebyshev.T ℝ k).eval (x i) = ∫ t in (-1 : ℝ)..1, (Polynomial.Chebyshev.T ℝ k).eval t)
    (q : Polynomial ℝ) (hq : q.degree < N) : ∑ i ∈ range M, w i * q.eval (x i) = ∫ t in (-1 : ℝ)..1, q.eval t := by
  obtain ⟨a, ea⟩ := C3.Poly.exists_series (fam := C3.Poly.chebFam (1 : ℝ)) one_ne_zero one_ne_zero (fun _ _ => two_ne_zero) N q hq
  simp only [C3.Poly.cheb_p] at ea
  simp only [ea]
  rw [intervalIntegral.integral_finsetSum (fun k _ => ((Polynomial.continuous _).const_mul _).intervalIntegrable _ _)]
  simp only [mul_sum]
  rw [sum_comm]
  refine sum_congr rfl fun k hk => ?_
  rw [intervalIntegral.integral_const_mul, ← h k (mem_range.1 hk), mul_sum]
  exact sum_congr rfl fun i _ => by ring

/-- Clenshaw-Curtis: with `N` points every polynomial of degree below `N` is integrated exactly over `[-1,1]`. -/
theorem clenshawCurtis_exact {N : Nat} (hN : 1 ≤ N) {pts wts : List ℝ} (hp : pts.length = N) (hw : wts.length = N) :
    ∃ p w, clenshawCurtis N pts wts = .ok (p, w) ∧ p.length = N ∧ w.length = N ∧
      ∀ q : Polynomial ℝ, q.degree < N → ∑ i ∈ range N, w.getD i 0 * q.eval (p.getD i 0) = ∫ x in (-1 : ℝ)..1, q.eval x := by
  rcases Nat.lt_or_ge 1 N with h2 | h2
  · obtain ⟨p, w, e, lp, lw, vp, vw⟩ := clenshawCurtis_value h2 hp hw
    refine ⟨p, w, e, lp, lw, poly_of_T fun k hk => ?_⟩
    obtain ⟨n, rfl⟩ : ∃ n, N = n + 1 := ⟨N - 1, by omega⟩
    rw [← cc_T (show 1 ≤ n by omega) (show k ≤ n by omega)]
    refine sum_congr rfl fun i hi => ?_
    rw [vw i (mem_range.1 hi), vp i (mem_range.1 hi)]
    simp only [Nat.add_sub_cancel]
  · obtain rfl : N = 1 := by omega
    refine ⟨pts.set 0 0, wts.set 0 2, by rw [clenshawCurtis, if_neg (by omega), if_pos rfl, wr_ok _ (by omega), bind_ok, wr_ok _ (by omega)]; rfl,
      by rw [List.length_set, hp], by rw [List.length_set, hw], fun q hq => ?_⟩
    have : q = Polynomial.C (q.coeff 0) := Polynomial.eq_C_of_degree_le_zero (by
      rw [Polynomial.degree_le_iff_coeff_zero]
      intro m hm
      rw [Polynomial.degree_lt_iff_coeff_zero] at hq
      exact hq m (by exact_mod_cast hm))
    rw [this]
    rw [sum_range_one, getD_set'' (show 0 < wts.length by omega), if_pos rfl]
    simp only [Polynomial.eval_C, intervalIntegral.integral_const, smul_eq_mul]
    ring

/-- The sum of the coefficients of the cosine terms of a weight. -/
theorem cc_coef_sum (m : Nat) : ∑ j ∈ range m, 2 / (4 * ((j + 1 : Nat) : ℝ) ^ 2 - 1) = 1 - 1 / (2 * (m : ℝ) + 1) := by
  induction m with
  | zero => simp
  | succ m ih =>
    rw [sum_range_succ, ih]
    have h1 : (2 * (m : ℝ) + 1) ≠ 0 := by positivity
    have h2 : (2 * ((m + 1 : Nat) : ℝ) + 1) ≠ 0 := by positivity
    have h3 : (4 * ((m + 1 : Nat) : ℝ) ^ 2 - 1) = (2 * (m : ℝ) + 1) * (2 * ((m + 1 : Nat) : ℝ) + 1) := by push_cast; ring
    rw [h3]
    field_simp
    push_cast; ring

theorem ccRaw_pos (n i : Nat) : 0 < ccRaw n i := by
  have h : ∑ j ∈ range (n / 2), (if 2 * (j + 1) = n then 1 else 2) * cos (2 * ((j + 1 : Nat) : ℝ) * (i * π / n)) / (4 * ((j + 1 : Nat) : ℝ) ^ 2 - 1)
      ≤ ∑ j ∈ range (n / 2), 2 / (4 * ((j + 1 : Nat) : ℝ) ^ 2 - 1) := by
    refine sum_le_sum fun j _ => ?_
    have hd : 0 < 4 * ((j + 1 : Nat) : ℝ) ^ 2 - 1 := by push_cast; nlinarith [Nat.cast_nonneg (α := ℝ) j]
    refine div_le_div_of_nonneg_right ?_ hd.le
    have hc := cos_le_one (2 * ((j + 1 : Nat) : ℝ) * (i * π / n))
    by_cases h : 2 * (j + 1) = n
    · rw [if_pos h]; linarith
    · rw [if_neg h]; linarith
  rw [cc_coef_sum] at h
  have : (0 : ℝ) < 1 / (2 * ((n / 2 : Nat) : ℝ) + 1) := by positivity
  rw [ccRaw]
  linarith

/-- All Clenshaw-Curtis weights are positive. -/
theorem clenshawCurtis_pos {N : Nat} (hN : 1 ≤ N) {pts wts : List ℝ} (hp : pts.length = N) (hw : wts.length = N) :
    ∃ p w, clenshawCurtis N pts wts = .ok (p, w) ∧ ∀ i < N, 0 < w.getD i 0 := by
  rcases Nat.lt_or_ge 1 N with h2 | h2
  · obtain ⟨p, w, e, lp, lw, vp, vw⟩ := clenshawCurtis_value h2 hp hw
    refine ⟨p, w, e, fun i hi => ?_⟩
    rw [vw i hi]
    have : 1 ≤ N - 1 := by omega
    have := ccRaw_pos (N - 1) i
    split <;> positivity
  · obtain rfl : N = 1 := by omega
    refine ⟨pts.set 0 0, wts.set 0 2, by rw [clenshawCurtis, if_neg (by omega), if_pos rfl, wr_ok _ (by omega), bind_ok, wr_ok _ (by omega)]; rfl,
      fun i hi => ?_⟩
    rw [getD_set'' (by omega), if_pos (by omega)]; norm_num

/-- Rescaling moves an exact rule from `[-1,1]` to `[a,b]`. -/
theorem rescaleCC_exact {N : Nat} {pts wts : List ℝ} (hp : pts.length = N) (hw : wts.length = N) {d : Nat}
    (hx : ∀ q : Polynomial ℝ, q.degree < d → ∑ i ∈ range N, wts.getD i 0 * q.eval (pts.getD i 0) = ∫ x in (-1 : ℝ)..1, q.eval x) (a b : ℝ) :
    ∃ p w, rescaleCC N pts wts a b = .ok (p, w) ∧ p.length = N ∧ w.length = N ∧
      ∀ q : Polynomial ℝ, q.degree < d → ∑ i ∈ range N, w.getD i 0 * q.eval (p.getD i 0) = ∫ x in a..b, q.eval x := by
  have hb : ∀ (i : Nat) (p w : List ℝ), i < p.length → i < w.length →
      ((do
        let q ← rd p i
        let pts ← wr p i (1 / 2 * ((q + 1) * b - (q - 1) * a))
        let v ← rd w i
        let wts ← wr w i (1 / 2 * (b - a) * v)
        pure (pts, wts)) : C (List ℝ × List ℝ)) =
        .ok (p.set i (1 / 2 * ((p.getD i 0 + 1) * b - (p.getD i 0 - 1) * a)), w.set i (1 / 2 * (b - a) * w.getD i 0)) := by
    intro i p w h1 h2
    rw [rd_getD 0 h1, bind_ok, wr_ok _ h1, bind_ok, rd_getD 0 h2, bind_ok, wr_ok _ h2, bind_ok, pure_eq_ok]
  obtain ⟨⟨p, w⟩, e, l1, l2, v1, v2⟩ := forN_spec (n := N) (s := (pts, wts)) (body := fun ii s => do
      let p ← rd s.1 ii
      let pts ← wr s.1 ii (1 / 2 * ((p + 1) * b - (p - 1) * a))
      let w ← rd s.2 ii
      let wts ← wr s.2 ii (1 / 2 * (b - a) * w)
      pure (pts, wts))
    (I := fun m s => s.1.length = N ∧ s.2.length = N ∧
      (∀ i, s.1.getD i 0 = if i < m then (1 / 2 * ((pts.getD i 0 + 1) * b - (pts.getD i 0 - 1) * a)) else pts.getD i 0) ∧
      ∀ i, s.2.getD i 0 = if i < m then 1 / 2 * (b - a) * wts.getD i 0 else wts.getD i 0)
    ⟨hp, hw, fun i => by simp, fun i => by simp⟩
    (by
      rintro m hm ⟨p, w⟩ ⟨l1, l2, v1, v2⟩
      dsimp only at l1 l2 v1 v2
      refine ⟨_, hb m p w (by omega) (by omega), by simp [l1], by simp [l2], fun i => ?_, fun i => ?_⟩
      · dsimp only
        have ev := v1 m
        rw [if_neg (lt_irrefl m)] at ev
        rw [getD_set'' (by omega), ev]
        by_cases h : i = m
        · rw [if_pos h, if_pos (by omega), h]
        · rw [if_neg h, v1 i]
          by_cases h2 : i < m
          · rw [if_pos h2, if_pos (by omega)]
          · rw [if_neg h2, if_neg (by omega)]
      · dsimp only
        have ev := v2 m
        rw [if_neg (lt_irrefl m)] at ev
        rw [getD_set'' (by omega), ev]
        by_cases h : i = m
        · rw [if_pos h, if_pos (by omega), h]
        · rw [if_neg h, v2 i]
          by_cases h2 : i < m
          · rw [if_pos h2, if_pos (by omega)]
          · rw [if_neg h2, if_neg (by omega)])
  refine ⟨p, w, e, l1, l2, fun q hq => ?_⟩
  have hq' : (q.comp (Polynomial.C ((b - a) / 2) * .X + Polynomial.C ((a + b) / 2))).degree < d := by
    by_cases h0 : q = 0
    · subst h0; rw [Polynomial.zero_comp]; exact hq
    · by_cases h1 : q.comp (Polynomial.C ((b - a) / 2) * .X + Polynomial.C ((a + b) / 2)) = 0
      · rw [h1, Polynomial.degree_zero]; exact lt_of_le_of_lt bot_le hq
      · rw [Polynomial.degree_eq_natDegree h1]
        rw [Polynomial.degree_eq_natDegree h0] at hq
        have : q.natDegree < d := by exact_mod_cast hq
        have h2 : (Polynomial.C ((b - a) / 2) * Polynomial.X + Polynomial.C ((a + b) / 2)).natDegree ≤ 1 := by compute_degree
        have h3 := Polynomial.natDegree_comp_le (p := q) (q := Polynomial.C ((b - a) / 2) * .X + Polynomial.C ((a + b) / 2))
        have h4 : q.natDegree * (Polynomial.C ((b - a) / 2) * Polynomial.X + Polynomial.C ((a + b) / 2)).natDegree ≤ q.natDegree * 1 :=
          Nat.mul_le_mul_left _ h2
        exact_mod_cast (by omega : (q.comp (Polynomial.C ((b - a) / 2) * .X + Polynomial.C ((a + b) / 2))).natDegree < d)
  have e3 := hx _ hq'
  simp only [Polynomial.eval_comp, Polynomial.eval_add, Polynomial.eval_mul, Polynomial.eval_C, Polynomial.eval_X] at e3
  have e4 := intervalIntegral.mul_integral_comp_mul_add (a := -1) (b := 1) (f := fun x => q.eval x) ((b - a) / 2) ((a + b) / 2)
  rw [show (b - a) / 2 * (-1) + (a + b) / 2 = a by ring, show (b - a) / 2 * 1 + (a + b) / 2 = b by ring] at e4
  rw [← e4, ← e3, mul_sum]
  refine sum_congr rfl fun i hi => ?_
  have hi' := mem_range.1 hi
  dsimp only at v1 v2
  rw [v1 i, v2 i, if_pos hi', if_pos hi',
    show 1 / 2 * ((pts.getD i 0 + 1) * b - (pts.getD i 0 - 1) * a) = (b - a) / 2 * pts.getD i 0 + (a + b) / 2 by ring]
  ring

/-- The rule called Fejer 2 keeps the inner Clenshaw-Curtis weights without change: with three or more points the weights do not sum
up to the length 2 of the interval, so not even constants are integrated exactly. -/
theorem fejer2_counterexample {N : Nat} (hN : 2 < N) {pts wts : List ℝ} (hp : pts.length = N) (hw : wts.length = N) :
    ∃ p w, fejer2 N pts wts = .ok (p, w) ∧ p.length = N ∧ w.length = N ∧ ∑ i ∈ range N, w.getD i 0 < 2 := by
  obtain ⟨p0, w0, e, lp, lw, -, vw⟩ := clenshawCurtis_value (N := N + 2) (by omega) (pts := List.replicate (N + 2) 0)
    (wts := List.replicate (N + 2) 0) (by simp) (by simp)
  obtain ⟨p0', w0', e', -, -, hx⟩ := clenshawCurtis_exact (N := N + 2) (by omega) (pts := List.replicate (N + 2) 0)
    (wts := List.replicate (N + 2) 0) (by simp) (by simp)
  obtain ⟨p0'', w0'', e'', hpos⟩ := clenshawCurtis_pos (N := N + 2) (by omega) (pts := List.replicate (N + 2) 0)
    (wts := List.replicate (N + 2) 0) (by simp) (by simp)
  rw [e] at e' e''
  obtain ⟨rfl, rfl⟩ := Prod.mk.inj (Except.ok.inj e')
  obtain ⟨rfl, rfl⟩ := Prod.mk.inj (Except.ok.inj e'')
  obtain ⟨p, ep, l1, -, -⟩ := forN_window (n := N) (off := 0) (a := pts) (body := fun ii p => do
      let v ← rd p0 (ii + 1)
      wr p ii v) (fun i _ => p0.getD (i + 1) 0) (by omega)
    (fun i hi b hb => by rw [rd_getD 0 (by omega), bind_ok, wr_ok _ (by omega), Nat.zero_add])
  obtain ⟨w, ew, l2, v2, -⟩ := forN_window (n := N) (off := 0) (a := wts) (body := fun ii w => do
      let v ← rd w0 (ii + 1)
      wr w ii v) (fun i _ => w0.getD (i + 1) 0) (by omega)
    (fun i hi b hb => by rw [rd_getD 0 (by omega), bind_ok, wr_ok _ (by omega), Nat.zero_add])
  refine ⟨p, w, by rw [fejer2, if_pos hN, e, bind_ok]; dsimp only; rw [ep, bind_ok, ew]; rfl, l1.trans hp, l2.trans hw, ?_⟩
  have h1 := hx 1 (by rw [Polynomial.degree_one]; exact_mod_cast Nat.succ_pos _)
  simp only [Polynomial.eval_one, mul_one] at h1
  rw [intervalIntegral.integral_const, sum_range_succ, sum_range_succ'] at h1
  have e5 : ∑ i ∈ range N, w.getD i 0 = ∑ i ∈ range N, w0.getD (i + 1) 0 := sum_congr rfl fun i hi => by
    have := v2 i (mem_range.1 hi)
    rwa [Nat.zero_add] at this
  have h2 := hpos 0 (by omega)
  have h3 := hpos (N + 1) (by omega)
  rw [e5]
  rw [smul_eq_mul] at h1
  linarith

/-- Points and weights of the Chebyshev-Gauss rule. -/
theorem chebGauss_value {N : Nat} {pts wts : List ℝ} (hp : pts.length = N) (hw : wts.length = N) :
    chebGauss N pts wts = .ok ((List.range N).map (fun i : Nat => cos ((2 * (i : ℝ) + 1) / (2 * N) * π)), List.replicate N (π / N)) := by
  have hb : ∀ (i : Nat) (p w : List ℝ), i < p.length → i < w.length →
      ((do
        let w ← wr w i (Real.pi / N)
        let p ← wr p i (Real.cos ((2 * ((i : ℝ) + 1) - 1) * Real.pi / 2 / N))
        pure (p, w)) : C (List ℝ × List ℝ)) = .ok (p.set i (cos ((2 * (i : ℝ) + 1) / (2 * N) * π)), w.set i (π / N)) := by
    intro i p w h1 h2
    rw [wr_ok _ h2, bind_ok, wr_ok _ h1, bind_ok, pure_eq_ok]
    congr 4
    ring
  obtain ⟨⟨p, w⟩, e, l1, l2, v1, v2⟩ := forN_spec (n := N) (s := (pts, wts)) (body := fun ii s => do
      let w ← wr s.2 ii (Real.pi / N)
      let p ← wr s.1 ii (Real.cos ((2 * ((ii : ℝ) + 1) - 1) * Real.pi / 2 / N))
      pure (p, w))
    (I := fun m s => s.1.length = N ∧ s.2.length = N ∧ (∀ i < m, s.1[i]? = some (cos ((2 * (i : ℝ) + 1) / (2 * N) * π))) ∧
      ∀ i < m, s.2[i]? = some (π / N))
    ⟨hp, hw, fun i h => absurd h (Nat.not_lt_zero _), fun i h => absurd h (Nat.not_lt_zero _)⟩
    (by
      rintro m hm ⟨p, w⟩ ⟨l1, l2, v1, v2⟩
      dsimp only at l1 l2 v1 v2
      refine ⟨_, hb m p w (by omega) (by omega), by simp [l1], by simp [l2], fun i hi => ?_, fun i hi => ?_⟩
      · rcases Nat.lt_or_eq_of_le (Nat.lt_succ_iff.1 hi) with h | rfl
        · dsimp only; rw [List.getElem?_set_ne (by omega)]; exact v1 i h
        · exact List.getElem?_set_self (by omega)
      · rcases Nat.lt_or_eq_of_le (Nat.lt_succ_iff.1 hi) with h | rfl
        · dsimp only; rw [List.getElem?_set_ne (by omega)]; exact v2 i h
        · exact List.getElem?_set_self (by omega))
  rw [chebGauss, e]
  dsimp only at l1 l2 v1 v2
  congr 2
  · refine List.ext_getElem? fun i => ?_
    rcases Nat.lt_or_ge i N with h | h
    · rw [v1 i h, List.getElem?_map, List.getElem?_range h]; rfl
    · rw [List.getElem?_eq_none (by omega), List.getElem?_eq_none (by simpa using h)]
  · refine List.ext_getElem? fun i => ?_
    rcases Nat.lt_or_ge i N with h | h
    · rw [v2 i h, List.getElem?_replicate, if_pos h]
    · rw [List.getElem?_eq_none (by omega), List.getElem?_eq_none (by simpa using h)]

/-- Chebyshev-Gauss: with `N` points every polynomial of degree below `2N` is integrated exactly for the weight `1/√(1-x²)`. -/
theorem chebGauss_exact {N : Nat} (hN : 1 ≤ N) {pts wts : List ℝ} (hp : pts.length = N) (hw : wts.length = N) :
    ∃ p w, chebGauss N pts wts = .ok (p, w) ∧ p.length = N ∧ w.length = N ∧
      ∀ q : Polynomial ℝ, q.degree < 2 * N → ∑ i ∈ range N, w.getD i 0 * q.eval (p.getD i 0) =
        ∫ x in (-1 : ℝ)..1, q.eval x * √(1 - x ^ 2)⁻¹ := by
  refine ⟨_, _, chebGauss_value hp hw, by simp, by simp, fun q hq => ?_⟩
  rw [← Polynomial.Chebyshev.integral_measureT, Polynomial.Chebyshev.integral_eq_sumZeroes (by omega) hq, Polynomial.Chebyshev.sumZeroes, mul_sum]
  refine sum_congr rfl fun i hi => ?_
  have hi' := mem_range.1 hi
  rw [List.getD_eq_getElem?_getD, List.getElem?_replicate, if_pos hi', List.getD_eq_getElem?_getD, List.getElem?_map, List.getElem?_range hi']
  rfl

example : ∃ p w, clenshawCurtis 5 [0, 0, 0, 0, 0] [0, 0, 0, 0, 0] = .ok (p, w) ∧ ∀ i < 5, 0 < w.getD i 0 :=
  clenshawCurtis_pos (by norm_num) rfl rfl

end C3.Quad

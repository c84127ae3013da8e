/-
C68: exactness of the projection for the quadrature rules of the three families. The Chebyshev-Gauss rule is the one the library computes
(`C3.Quad.chebGauss`); for the Gauss-Legendre and Gauss-Hermite rules, which come from tables and LAPACK, the exactness of the moments
of degree below twice the number of points is a hypothesis.
-/
import Verif.Quad.CC
import Verif.Poly.Hermite

set_option linter.unusedSectionVars false

namespace C3.Poly
open Finset Real MeasureTheory

/-- The rule returned by `cheb_gauss` (blocks of `N` zeros are filled). -/
def IsChebGauss (N : Nat) (r : Rule ℝ) : Prop :=
  C3.Quad.chebGauss N (List.replicate N 0) (List.replicate N 0) = .ok (r.pts, r.wts)

/-- `n` points integrating the monomials of degree below `2n` exactly for the uniform weight one half on `[-1,1]`. -/
structure IsGaussLeg (n : Nat) (r : Rule ℝ) : Prop where
  pts : r.pts.length = n
  wts : r.wts.length = n
  moment : ∀ m < 2 * n, ∑ i ∈ range n, r.wts.getD i 0 * r.pts.getD i 0 ^ m = (1 / 2) * ∫ x in (-1 : ℝ)..1, x ^ m

/-- `n` points integrating the monomials of degree below `2n` exactly for the standard normal density. -/
structure IsGaussHerm (n : Nat) (r : Rule ℝ) : Prop where
  pts : r.pts.length = n
  wts : r.wts.length = n
  moment : ∀ m < 2 * n, ∑ i ∈ range n, r.wts.getD i 0 * r.pts.getD i 0 ^ m = ∫ x, x ^ m * phi x

theorem sum_poly {n d : Nat} {w x : Nat → ℝ} {I : Nat → ℝ} (h : ∀ m < d, ∑ i ∈ range n, w i * x i ^ m = I m) (q : Polynomial ℝ)
    (hq : q.natDegree < d) : ∑ i ∈ range n, w i * q.eval (x i) = ∑ m ∈ range (q.natDegree + 1), q.coeff m * I m := by
  simp only [Polynomial.eval_eq_sum_range, mul_sum]
  rw [sum_comm]
  refine sum_congr rfl fun m hm => ?_
  have hm' := mem_range.1 hm
  rw [← h m (by omega), mul_sum]
  exact sum_congr rfl fun i _ => by ring

theorem IsGaussLeg.exact {n : Nat} {r : Rule ℝ} (h : IsGaussLeg n r) (q : Polynomial ℝ) (hq : q.natDegree < 2 * n) :
    ∑ i ∈ range n, r.wts.getD i 0 * q.eval (r.pts.getD i 0) = (1 / 2) * ∫ x in (-1 : ℝ)..1, q.eval x := by
  rw [sum_poly h.moment q hq]
  simp only [Polynomial.eval_eq_sum_range]
  rw [intervalIntegral.integral_finsetSum (fun m _ => ((continuous_pow m).const_mul _).intervalIntegrable _ _), mul_sum]
  refine sum_congr rfl fun m _ => ?_
  rw [intervalIntegral.integral_const_mul]; ring

theorem IsGaussHerm.exact {n : Nat} {r : Rule ℝ} (h : IsGaussHerm n r) (q : Polynomial ℝ) (hq : q.natDegree < 2 * n) :
    ∑ i ∈ range n, r.wts.getD i 0 * q.eval (r.pts.getD i 0) = ∫ x, q.eval x * phi x := by
  rw [sum_poly h.moment q hq]
  simp only [Polynomial.eval_eq_sum_range, sum_mul]
  rw [integral_finsetSum _ (fun m _ => by
    have := (IsPoly.integrable (f := fun x => x ^ m) ⟨.X ^ m, fun x => by simp⟩).const_mul (q.coeff m)
    simpa only [mul_assoc] using this)]
  refine sum_congr rfl fun m _ => ?_
  rw [← integral_const_mul]
  exact integral_congr_ae (ae_of_all _ fun x => by ring)

theorem legFam_lead : legFam.c0 ≠ 0 ∧ legFam.l1 ≠ 0 ∧ ∀ n, 2 ≤ n → legFam.an n ≠ 0 := by
  refine ⟨one_ne_zero, by simp [legFam], fun n hn => ?_⟩
  have h2 : (2 : ℝ) ≤ n := by exact_mod_cast hn
  exact div_ne_zero (Real.sqrt_pos.2 (by nlinarith)).ne' (by positivity)

theorem hermFam_lead (big : ℝ) : (hermFam big).c0 ≠ 0 ∧ (hermFam big).l1 ≠ 0 ∧ ∀ n, 2 ≤ n → (hermFam big).an n ≠ 0 := by
  refine ⟨one_ne_zero, one_ne_zero, fun n hn => ?_⟩
  exact div_ne_zero one_ne_zero (Real.sqrt_pos.2 (by positivity)).ne'

theorem chebFam_lead (pi : ℝ) : (chebFam pi).c0 ≠ 0 ∧ (chebFam pi).l1 ≠ 0 ∧ ∀ n, 2 ≤ n → (chebFam pi).an n ≠ 0 :=
  ⟨one_ne_zero, one_ne_zero, fun _ _ => two_ne_zero⟩

theorem legDiscOrth {n N : Nat} {r : Rule ℝ} (h : IsGaussLeg n r) (hN : N ≤ n) : DiscOrth legFam r n N := by
  intro j hj k hk
  obtain ⟨P, p1, -, p3⟩ := p_poly legFam_lead.1 legFam_lead.2.1 legFam_lead.2.2 j
  obtain ⟨R, r1, -, r3⟩ := p_poly legFam_lead.1 legFam_lead.2.1 legFam_lead.2.2 k
  have e := h.exact (P * R) (by have := Polynomial.natDegree_mul_le (p := P) (q := R); omega)
  simp only [Polynomial.eval_mul, p3, r3] at e
  rw [e, leg_orthonormal]
  rfl

theorem hermDiscOrth {big : ℝ} {n N : Nat} {r : Rule ℝ} (h : IsGaussHerm n r) (hN : N ≤ n) : DiscOrth (hermFam big) r n N := by
  intro j hj k hk
  obtain ⟨P, p1, -, p3⟩ := p_poly (hermFam_lead big).1 (hermFam_lead big).2.1 (hermFam_lead big).2.2 j
  obtain ⟨R, r1, -, r3⟩ := p_poly (hermFam_lead big).1 (hermFam_lead big).2.1 (hermFam_lead big).2.2 k
  have e := h.exact (P * R) (by have := Polynomial.natDegree_mul_le (p := P) (q := R); omega)
  simp only [Polynomial.eval_mul, p3, r3] at e
  rw [e, herm_orthonormal]
  rfl

theorem cheb_orthogonal (j k : Nat) : ∫ x in (-1 : ℝ)..1, (chebFam π).p j x * (chebFam π).p k x * √(1 - x ^ 2)⁻¹ =
    if j = k then (chebFam π).norm k else 0 := by
  simp only [cheb_p]
  rw [← Polynomial.Chebyshev.integral_measureT (fun x => (Polynomial.Chebyshev.T ℝ j).eval x * (Polynomial.Chebyshev.T ℝ k).eval x)]
  by_cases h : j = k
  · subst h
    rw [if_pos rfl]
    by_cases h0 : j = 0
    · subst h0
      exact Polynomial.Chebyshev.integral_eval_T_real_mul_self_measureT_zero
    · rw [Polynomial.Chebyshev.integral_T_real_mul_self_measureT_of_ne_zero h0]
      simp [chebFam, h0]
  · rw [if_neg h]
    exact Polynomial.Chebyshev.integral_eval_T_real_mul_eval_T_real_measureT_of_ne h

theorem chebDiscOrth {n N : Nat} {r : Rule ℝ} (h : IsChebGauss n r) (hN : N ≤ n) :
    DiscOrth (chebFam π) ⟨r.pts ++ [0], r.wts ++ [0]⟩ (n + 1) N := by
  intro j hj k hk
  obtain ⟨p, w, e, lp, lw, hx⟩ := C3.Quad.chebGauss_exact (N := n) (by omega) (pts := List.replicate n 0) (wts := List.replicate n 0)
    (by simp) (by simp)
  rw [IsChebGauss, e] at h
  obtain ⟨rfl, rfl⟩ := Prod.mk.inj (Except.ok.inj h)
  have hl := chebFam_lead π
  obtain ⟨P, p1, -, p3⟩ := p_poly hl.1 hl.2.1 hl.2.2 j
  obtain ⟨R, r1, -, r3⟩ := p_poly hl.1 hl.2.1 hl.2.2 k
  have e2 := hx (P * R) (by
    refine lt_of_le_of_lt Polynomial.degree_le_natDegree ?_
    have := Polynomial.natDegree_mul_le (p := P) (q := R)
    exact_mod_cast (by omega : (P * R).natDegree < 2 * n))
  simp only [Polynomial.eval_mul, p3, r3] at e2
  have e3 : (r.wts ++ [0]).getD n 0 = (0 : ℝ) := by
    rw [List.getD_eq_getElem?_getD, List.getElem?_append_right (by omega), lw]; simp
  rw [sum_range_succ, e3, zero_mul, add_zero, ← cheb_orthogonal, ← e2]
  refine sum_congr rfl fun i hi => ?_
  have hi' := mem_range.1 hi
  dsimp only
  rw [List.getD_eq_getElem?_getD, List.getElem?_append_left (by omega), ← List.getD_eq_getElem?_getD,
    List.getD_eq_getElem?_getD (l := r.pts ++ [0]), List.getElem?_append_left (by omega), ← List.getD_eq_getElem?_getD]

/-- Legendre: the projection reproduces every polynomial of degree below the number of basis functions. -/
theorem approx_leg {Q : PT → Nat → Rule ℝ} {A : ℝ → C ℝ} {f : Ope ℝ} (hf : f.WF) (hfam : f.fam = legFam)
    (hQ : IsGaussLeg (f.num + 1) (Q .leg (f.num + 1))) (hm : f.map.Inv) (hz : ∀ k < f.num, f.coeff.getD k 0 = 0)
    (q : Polynomial ℝ) (hq : q.degree < f.num) (hA : ∀ x, A x = .ok (q.eval (f.map.slope * x + f.map.off))) :
    ∃ r, approx Q A f = .ok r ∧ r.WF ∧ ∀ x, r.val x = q.eval (f.map.slope * x + f.map.off) := by
  have hr : approxRule Q f = Q .leg (f.num + 1) := by rw [approxRule, hfam]; rfl
  refine approx_poly hf (by rw [hr, hQ.pts]) (by rw [hr, hQ.wts]) (fun k _ => by rw [hfam]; exact one_ne_zero) hm hz ?_ ?_ ?_ ?_ q hq hA
  · rw [hr, hfam]; exact legDiscOrth hQ (by omega)
  · rw [hfam]; exact legFam_lead.1
  · rw [hfam]; exact legFam_lead.2.1
  · rw [hfam]; exact legFam_lead.2.2

/-- Hermite: the projection reproduces every polynomial of degree below the number of basis functions. -/
theorem approx_herm {big : ℝ} {Q : PT → Nat → Rule ℝ} {A : ℝ → C ℝ} {f : Ope ℝ} (hf : f.WF) (hfam : f.fam = hermFam big)
    (hQ : IsGaussHerm (f.num + 1) (Q .herm (f.num + 1))) (hm : f.map.Inv) (hz : ∀ k < f.num, f.coeff.getD k 0 = 0)
    (q : Polynomial ℝ) (hq : q.degree < f.num) (hA : ∀ x, A x = .ok (q.eval (f.map.slope * x + f.map.off))) :
    ∃ r, approx Q A f = .ok r ∧ r.WF ∧ ∀ x, r.val x = q.eval (f.map.slope * x + f.map.off) := by
  have hr : approxRule Q f = Q .herm (f.num + 1) := by rw [approxRule, hfam]; rfl
  refine approx_poly hf (by rw [hr, hQ.pts]) (by rw [hr, hQ.wts]) (fun k _ => by rw [hfam]; exact one_ne_zero) hm hz ?_ ?_ ?_ ?_ q hq hA
  · rw [hr, hfam]; exact hermDiscOrth hQ (by omega)
  · rw [hfam]; exact (hermFam_lead big).1
  · rw [hfam]; exact (hermFam_lead big).2.1
  · rw [hfam]; exact (hermFam_lead big).2.2

theorem chebFam_norm (k : Nat) : (chebFam π).norm k ≠ 0 := by
  have := pi_ne_zero
  show (if k = 0 then π else π / 2) ≠ 0
  split <;> positivity

theorem IsChebGauss.length {N : Nat} {r : Rule ℝ} (h : IsChebGauss N r) : r.pts.length = N ∧ r.wts.length = N := by
  rw [IsChebGauss, C3.Quad.chebGauss_value (by simp) (by simp)] at h
  obtain ⟨h1, h2⟩ := Prod.mk.inj (Except.ok.inj h)
  rw [← h1, ← h2]; simp

/-- Chebyshev: the projection reproduces every polynomial of degree below the number of basis functions. -/
theorem approx_cheb {Q : PT → Nat → Rule ℝ} {A : ℝ → C ℝ} {f : Ope ℝ} (hf : f.WF) (hfam : f.fam = chebFam π)
    (hQ : IsChebGauss f.num (Q .cheb f.num)) (hm : f.map.Inv) (hz : ∀ k < f.num, f.coeff.getD k 0 = 0)
    (q : Polynomial ℝ) (hq : q.degree < f.num) (hA : ∀ x, A x = .ok (q.eval (f.map.slope * x + f.map.off))) :
    ∃ r, approx Q A f = .ok r ∧ r.WF ∧ ∀ x, r.val x = q.eval (f.map.slope * x + f.map.off) := by
  have hr : approxRule Q f = ⟨(Q .cheb f.num).pts ++ [0], (Q .cheb f.num).wts ++ [0]⟩ := by rw [approxRule, hfam]; rfl
  have hl := hQ.length
  refine approx_poly hf (by rw [hr]; simp [hl.1]) (by rw [hr]; simp [hl.2]) (fun k _ => by rw [hfam]; exact chebFam_norm k) hm hz ?_ ?_ ?_ ?_ q hq hA
  · rw [hr, hfam]; exact chebDiscOrth hQ (by omega)
  · rw [hfam]; exact (chebFam_lead π).1
  · rw [hfam]; exact (chebFam_lead π).2.1
  · rw [hfam]; exact (chebFam_lead π).2.2

/-- The Chebyshev-Gauss rule exists for every number of points. -/
theorem exists_isChebGauss (N : Nat) : ∃ r, IsChebGauss N r :=
  ⟨⟨_, _⟩, C3.Quad.chebGauss_value (by simp) (by simp)⟩

/-- One point: the midpoint rule is the Gauss-Legendre rule. -/
theorem isGaussLeg_one : IsGaussLeg 1 ⟨[0], [1]⟩ := by
  refine ⟨rfl, rfl, fun m hm => ?_⟩
  have : m = 0 ∨ m = 1 := by omega
  rcases this with rfl | rfl
  · simp; norm_num
  · simp

/-- Two points: the rule of the first projection has a Gauss-Legendre rule. -/
theorem isGaussLeg_two : IsGaussLeg 2 ⟨[-(1 / √3), 1 / √3], [1 / 2, 1 / 2]⟩ := by
  refine ⟨rfl, rfl, fun m hm => ?_⟩
  have h3 : √(3 : ℝ) ^ 2 = 3 := Real.sq_sqrt (by norm_num)
  have : m = 0 ∨ m = 1 ∨ m = 2 ∨ m = 3 := by omega
  rcases this with rfl | rfl | rfl | rfl
  · simp [sum_range_succ]; norm_num
  · simp [sum_range_succ]
  · rw [integral_pow]
    simp [sum_range_succ, h3]
    norm_num
  · rw [integral_pow]
    simp [sum_range_succ]
    ring_nf

theorem isGaussHerm_one : IsGaussHerm 1 ⟨[0], [1]⟩ := by
  refine ⟨rfl, rfl, fun m hm => ?_⟩
  have : m = 0 ∨ m = 1 := by omega
  rcases this with rfl | rfl
  · simp [phi_integral]
  · have := herm_mean (big := 0) 1
    simp [hermFam] at this
    simp [this]

/-- A quadratic on [0,2] projected on three Chebyshev polynomials. -/
example : ∃ r, approx (fun _ n => ⟨(List.range n).map (fun i : Nat => cos ((2 * (i : ℝ) + 1) / (2 * n) * π)), List.replicate n (π / n)⟩)
    (fun x => .ok ((x - 1) ^ 2)) ⟨chebFam π, 3, 0, 2, ⟨1, -1, 1, 1⟩, 3, [0, 0, 0], false⟩ = .ok r ∧ r.val 5 = 16 := by
  obtain ⟨r, e, -, v⟩ := approx_cheb (Q := fun _ n => ⟨(List.range n).map (fun i : Nat => cos ((2 * (i : ℝ) + 1) / (2 * n) * π)), List.replicate n (π / n)⟩)
    (A := fun x => .ok ((x - 1) ^ 2)) (f := ⟨chebFam π, 3, 0, 2, ⟨1, -1, 1, 1⟩, 3, [0, 0, 0], false⟩)
    ⟨by norm_num, by norm_num, by simp, fun _ => ⟨π, rfl⟩⟩ rfl (C3.Quad.chebGauss_value (by simp) (by simp)) ⟨by norm_num, by norm_num⟩
    (fun k hk => by
      have hk' : k < 3 := hk
      have : k = 0 ∨ k = 1 ∨ k = 2 := by omega
      rcases this with rfl | rfl | rfl <;> rfl)
    (.X ^ 2) (by rw [Polynomial.degree_X_pow]; norm_num) (fun x => by simp [sub_eq_add_neg])
  refine ⟨r, e, ?_⟩
  rw [v]; norm_num

/-- A constant projected on one Legendre polynomial. -/
example : ∃ r, approx (fun _ _ => ⟨[-(1 / √3), 1 / √3], [1 / 2, 1 / 2]⟩) (fun _ => .ok 7)
    ⟨legFam, 1, 0, 2, ⟨1, -1, 1, 1⟩, 1, [0], false⟩ = .ok r ∧ r.val 1 = 7 := by
  obtain ⟨r, e, -, v⟩ := approx_leg (Q := fun _ _ => ⟨[-(1 / √3), 1 / √3], [1 / 2, 1 / 2]⟩) (A := fun _ => .ok 7)
    (f := ⟨legFam, 1, 0, 2, ⟨1, -1, 1, 1⟩, 1, [0], false⟩) ⟨by norm_num, by norm_num, by simp, fun h => by cases h⟩ rfl
    isGaussLeg_two ⟨by norm_num, by norm_num⟩
    (fun k hk => by
      have hk' : k < 1 := hk
      obtain rfl : k = 0 := by omega
      rfl)
    (.C 7) (by rw [Polynomial.degree_C (by norm_num)]; norm_num) (fun x => by simp)
  refine ⟨r, e, ?_⟩
  rw [v]; norm_num

end C3.Poly

/- Weighted integrals, norms and gradients of norms with respect to the coefficients (properties C73-C75). -/
import Verif.Poly.IntProps
import Mathlib.Analysis.Real.Pi.Bounds

set_option linter.unusedSectionVars false

namespace C3.Poly
open Finset Real MeasureTheory

variable {big : ℝ}

/-! ### Weighted integrals -/

/-- C73: the weighted integral of a Legendre expansion is its mean. -/
theorem integrateWeighted_leg {f : Ope ℝ} (hf : f.WF) (hfam : f.fam = legFam) (h : OnInt f) :
    integrateWeighted f = .ok ((∫ x in f.lb..f.ub, f.val x) / (f.ub - f.lb)) := by
  have h1 := integrate_leg hf hfam h
  rw [integrate, hfam] at h1
  change legIntegrate f = _ at h1
  rw [legIntegrate, hf.rdc hf.pos, bind_ok] at h1
  rw [integrateWeighted, hf.rdc hf.pos, ← Except.ok.inj h1, h.islope]
  have h0 : f.ub - f.lb ≠ 0 := by linarith [h.lt]
  congr 1
  field_simp

/-- C73: the weighted integral of a Hermite expansion is its expectation. -/
theorem integrateWeighted_herm {f : Ope ℝ} (hf : f.WF) (hfam : f.fam = hermFam big) (hs : 0 < f.map.slope) :
    integrateWeighted f = .ok (∫ x, f.val x * dens f.map x) := by
  have h := integrate_herm hf hfam hs
  rw [integrate, hfam] at h
  exact h

/-- C74: the weighted inner product of two Chebyshev expansions is the integral with the Chebyshev weight. -/
theorem innerW_cheb {a b : Ope ℝ} (ha : a.WF) (hb : b.WF) (hfa : a.fam = chebFam π) (hfb : b.fam = chebFam π) (h : OnInt a) (hmap : b.map = a.map) :
    innerW a b = .ok (a.map.slope * ∫ x in a.lb..a.ub, a.val x * b.val x * √(1 - (a.map.slope * x + a.map.off) ^ 2)⁻¹) := by
  have hpt : a.fam.pt = .cheb := by rw [hfa]; rfl
  have hpb : b.fam.pt = .cheb := by rw [hfb]; rfl
  rw [innerW_ok ha hb (hpt.trans hpb.symm)]
  congr 1
  have e1 := int_comp h (fun y => (∑ j ∈ range a.num, a.coeff.getD j 0 * a.fam.p j y) * (∑ k ∈ range b.num, b.coeff.getD k 0 * a.fam.p k y) * √(1 - y ^ 2)⁻¹)
  have e2 : ∀ x, b.val x = ∑ k ∈ range b.num, b.coeff.getD k 0 * a.fam.p k (a.map.slope * x + a.map.off) := fun x => by
    rw [Ope.val, hmap, hfb, hfa]
  simp only [e2]
  simp only [Ope.val]
  refine Eq.trans ?_ (congrArg (a.map.slope * ·) e1.symm)
  rw [← mul_assoc, mul_comm a.map.slope, h.inv, one_mul]
  have e3 : ∀ y, (∑ j ∈ range a.num, a.coeff.getD j 0 * a.fam.p j y) * (∑ k ∈ range b.num, b.coeff.getD k 0 * a.fam.p k y) * √(1 - y ^ 2)⁻¹ =
      ∑ j ∈ range a.num, ∑ k ∈ range b.num, a.coeff.getD j 0 * b.coeff.getD k 0 * (a.fam.p j y * a.fam.p k y * √(1 - y ^ 2)⁻¹) := fun y => by
    rw [sum_mul_sum, sum_mul]
    refine sum_congr rfl fun j _ => ?_
    rw [sum_mul]
    exact sum_congr rfl fun k _ => by ring
  simp only [e3]
  have hc : ∀ j k, IntervalIntegrable (fun y => a.fam.p j y * a.fam.p k y * √(1 - y ^ 2)⁻¹) volume (-1) 1 := fun j k =>
    Polynomial.Chebyshev.intervalIntegrable_sqrt_one_sub_sq_inv.continuousOn_mul ((p_continuous a.fam j).mul (p_continuous a.fam k)).continuousOn
  rw [intervalIntegral.integral_finsetSum fun j _ => by
    have := IntervalIntegrable.sum (range b.num) (f := fun k y => a.coeff.getD j 0 * b.coeff.getD k 0 * (a.fam.p j y * a.fam.p k y * √(1 - y ^ 2)⁻¹))
      (fun k _ => (hc j k).const_mul _)
    rw [show (fun y => ∑ k ∈ range b.num, a.coeff.getD j 0 * b.coeff.getD k 0 * (a.fam.p j y * a.fam.p k y * √(1 - y ^ 2)⁻¹)) =
      ∑ k ∈ range b.num, fun y => a.coeff.getD j 0 * b.coeff.getD k 0 * (a.fam.p j y * a.fam.p k y * √(1 - y ^ 2)⁻¹) from by
      funext y; rw [Finset.sum_apply]]
    exact this]
  rw [← cf_sum]
  refine sum_congr rfl fun j _ => ?_
  rw [intervalIntegral.integral_finsetSum fun k _ => (hc j k).const_mul _]
  refine sum_congr rfl fun k _ => ?_
  rw [intervalIntegral.integral_const_mul, hfa, cheb_orthogonal]

/-- The constant 1 as a Chebyshev expansion on `[-1, 1]`. -/
noncomputable def chebOne : Ope ℝ := ⟨chebFam π, 1, -1, 1, ⟨1, 0, 1, 0⟩, 1, [1], false⟩

/-- C73 fails for Chebyshev expansions: the weighted integral of 1 is 1, but the weighted inner product of 1 with itself is π, so that
mean and second moment (as used for variances) belong to different weights: the "variance" of the constant is `π - 1`. -/
theorem integrateWeighted_cheb_counterexample :
    integrateWeighted chebOne = .ok 1 ∧ innerW chebOne chebOne = .ok π ∧ π - 1 * 1 ≠ 0 := by
  refine ⟨rfl, ?_, ?_⟩
  · simp [innerW, chebOne, cassert, forN, rd, chebFam, bind, Except.bind, pure, Except.pure]
  · have := Real.pi_gt_three
    intro c; linarith

/-! ### Norms -/

/-- C74: the norm of a Legendre expansion. -/
theorem norm_leg (other : Ope ℝ → Ope ℝ → C ℝ) {f : Ope ℝ} (hf : f.WF) (hfam : f.fam = legFam) (h : OnInt f) :
    norm Real.sqrt other f = .ok (√(∫ x in f.lb..f.ub, f.val x ^ 2)) := by
  rw [norm, inner_leg other hf hf hfam hfam h rfl, bind_ok]
  simp only [sq]; rfl

/-- C74: the norm of a Hermite expansion. -/
theorem norm_herm (other : Ope ℝ → Ope ℝ → C ℝ) {f : Ope ℝ} (hf : f.WF) (hfam : f.fam = hermFam big) (hs : 0 < f.map.slope) :
    norm Real.sqrt other f = .ok (√(∫ x, f.val x ^ 2 * dens f.map x)) := by
  rw [norm, inner_herm other hf hf hfam hfam hs rfl, bind_ok]
  simp only [sq]; rfl

/-- The constant 4 as a Legendre expansion on `[0, 1]`. -/
noncomputable def legFour : Ope ℝ := ⟨legFam, 1, 0, 1, ⟨2, -1, 1 / 2, 1 / 2⟩, 1, [4], false⟩

/-- C74 fails for the weighted norm, which takes the square root twice: the norm of the constant 4 on an interval of length 1 is returned as 2. -/
theorem normW_counterexample : innerW legFour legFour = .ok (4 ^ 2) ∧ normW Real.sqrt legFour = .ok 2 ∧ √((4 : ℝ) ^ 2) ≠ 2 := by
  have h : innerW legFour legFour = .ok (4 ^ 2) := by
    simp [innerW, legFour, cassert, forN, rd, legFam, bind, Except.bind, pure, Except.pure]; norm_num
  refine ⟨h, ?_, ?_⟩
  · rw [normW, h, bind_ok, Real.sqrt_sq (by norm_num), show (4 : ℝ) = 2 ^ 2 by norm_num, Real.sqrt_sq (by norm_num)]; rfl
  · rw [Real.sqrt_sq (by norm_num)]; norm_num

/-! ### Gradients with respect to the coefficients -/

theorem addLoop' {n : Nat} {grad : List ℝ} (v : Nat → ℝ) (hg : n ≤ grad.length) {body : Nat → List ℝ → C (List ℝ)}
    (hb : ∀ i < n, ∀ g : List ℝ, g.length = grad.length → body i g = .ok (g.set i (g.getD i 0 + v i))) :
    ∃ g, forN n body grad = .ok g ∧ g.length = grad.length ∧ (∀ k < n, g.getD k 0 = grad.getD k 0 + v k) ∧ ∀ k, n ≤ k → g.getD k 0 = grad.getD k 0 := by
  obtain ⟨g, e, l, h1, h2⟩ := forN_window (n := n) (off := 0) (a := grad) (fun k w => w + v k) (by omega) (body := body)
    (fun i hi b hbl => by rw [hb i hi b hbl, Nat.zero_add])
  exact ⟨g, e, l, fun k hk => by have := h1 k hk; rwa [Nat.zero_add] at this, fun k hk => by rw [List.getD_eq_getElem?_getD, h2 k (Or.inr (by omega)), ← List.getD_eq_getElem?_getD]⟩

/-- The expansion with coefficient `k` replaced by `t`. -/
def Ope.setCf (f : Ope ℝ) (k : Nat) (t : ℝ) : Ope ℝ := { f with coeff := f.coeff.set k t }

theorem sq_leg {f : Ope ℝ} (hf : f.WF) (hfam : f.fam = legFam) (h : OnInt f) :
    ∫ x in f.lb..f.ub, f.val x ^ 2 = ∑ k ∈ range f.num, f.coeff.getD k 0 * f.coeff.getD k 0 * (f.ub - f.lb) := by
  have h1 := innerW_leg hf hf hfam hfam h rfl
  rw [innerW_ok hf hf rfl, min_self, hfam] at h1
  have h0 : f.ub - f.lb ≠ 0 := by linarith [h.lt]
  have h2 := Except.ok.inj h1
  simp only [sq]
  rw [eq_div_iff h0] at h2
  rw [← h2, sum_mul]
  exact sum_congr rfl fun k _ => by rw [show legFam.norm k = 1 from rfl, mul_one]

theorem setCf_wf {f : Ope ℝ} (hf : f.WF) (k : Nat) (t : ℝ) : (f.setCf k t).WF :=
  ⟨hf.pos, hf.num_le, by simpa [Ope.setCf] using hf.alloc_le, hf.cheb⟩

theorem quad_deriv {f : Ope ℝ} (hf : f.WF) {k : Nat} (hk : k < f.num) (w : Nat → ℝ) :
    HasDerivAt (fun t => ∑ i ∈ range f.num, (f.setCf k t).coeff.getD i 0 * (f.setCf k t).coeff.getD i 0 * w i) (2 * f.coeff.getD k 0 * w k) (f.coeff.getD k 0) := by
  have hl := hf.num_le.trans hf.alloc_le
  have e : ∀ t, ∑ i ∈ range f.num, (f.setCf k t).coeff.getD i 0 * (f.setCf k t).coeff.getD i 0 * w i =
      (∑ i ∈ (range f.num).erase k, f.coeff.getD i 0 * f.coeff.getD i 0 * w i) + t * t * w k := fun t => by
    rw [← sum_erase_add _ _ (mem_range.2 hk)]
    congr 1
    · exact sum_congr rfl fun i hi => by
        rw [Ope.setCf, getD_set' (by omega), if_neg (ne_of_mem_erase hi)]
    · rw [Ope.setCf, getD_set' (by omega), if_pos rfl]
  simp only [e]
  have := (((hasDerivAt_id (f.coeff.getD k 0)).mul (hasDerivAt_id (f.coeff.getD k 0))).mul_const (w k)).const_add
    (∑ i ∈ (range f.num).erase k, f.coeff.getD i 0 * f.coeff.getD i 0 * w i)
  rw [show 2 * f.coeff.getD k 0 * w k = (1 * id (f.coeff.getD k 0) + id (f.coeff.getD k 0) * 1) * w k by simp only [id]; ring]
  exact this

/-- C75: for a Legendre expansion the call adds `scale` times the partial derivative of the squared norm to each entry. -/
theorem sqNormGrad_leg {f : Ope ℝ} (hf : f.WF) (hfam : f.fam = legFam) (hk : f.krist = false) (h : OnInt f) (scale : ℝ) {grad : List ℝ} (hg : f.num ≤ grad.length) :
    ∃ g, sqNormGrad f scale grad = .ok g ∧ g.length = grad.length ∧
      (∀ k < f.num, HasDerivAt (fun t => scale * ∫ x in f.lb..f.ub, (f.setCf k t).val x ^ 2) (g.getD k 0 - grad.getD k 0) (f.coeff.getD k 0)) ∧
      ∀ k, f.num ≤ k → g.getD k 0 = grad.getD k 0 := by
  obtain ⟨g, e, l, h1, h2⟩ := addLoop' (n := f.num) (grad := grad) (fun ii => 2 * scale * f.coeff.getD ii 0 * f.fam.norm ii * (f.ub - f.lb)) hg
    (body := fun ii g => do
      let v ← rd g ii
      let c ← rd f.coeff ii
      wr g ii (v + 2 * scale * c * f.fam.norm ii * (f.ub - f.lb)))
    (fun i hi g hl => by rw [rd_getD 0 (by omega), bind_ok, hf.rdc hi, bind_ok, wr_ok _ (by omega)])
  refine ⟨g, ?_, l, fun k hk' => ?_, h2⟩
  · rw [sqNormGrad, hk, show cassert (!false) = .ok () from rfl, bind_ok, show f.fam.pt = .leg by rw [hfam]; rfl]; exact e
  · have e3 : ∀ t, ∫ x in f.lb..f.ub, (f.setCf k t).val x ^ 2 =
        ∑ i ∈ range f.num, (f.setCf k t).coeff.getD i 0 * (f.setCf k t).coeff.getD i 0 * (f.ub - f.lb) := fun t =>
      sq_leg (setCf_wf hf k t) hfam ⟨h.lt, h.lo, h.hi, h.inv⟩
    simp only [e3]
    have := (quad_deriv hf hk' (fun _ => f.ub - f.lb)).const_mul scale
    rw [show g.getD k 0 - grad.getD k 0 = scale * (2 * f.coeff.getD k 0 * (f.ub - f.lb)) by
      rw [h1 k hk', hfam, show legFam.norm k = 1 from rfl]; ring]
    exact this

theorem sq_herm {f : Ope ℝ} (hf : f.WF) (hfam : f.fam = hermFam big) (hs : 0 < f.map.slope) :
    ∫ x, f.val x ^ 2 * dens f.map x = ∑ k ∈ range f.num, f.coeff.getD k 0 * f.coeff.getD k 0 * 1 := by
  have hpt : f.fam.pt = .herm := by rw [hfam]; rfl
  have h1 := inner_herm (fun _ _ => .error .ub) hf hf hfam hfam hs rfl
  rw [inner, if_pos ⟨hpt, hpt⟩, innerW_ok hf hf rfl, min_self, hfam] at h1
  simp only [sq]
  exact (Except.ok.inj h1).symm

/-- C75: for a Hermite expansion the derivative of the squared norm is added with an extra factor, the slope of the mapping; the result is right
only when that is 1 (standard deviation 1). -/
theorem sqNormGrad_herm_partial {f : Ope ℝ} (hf : f.WF) (hfam : f.fam = hermFam big) (hk : f.krist = false) (hs : 0 < f.map.slope) (scale : ℝ) {grad : List ℝ}
    (hg : f.num ≤ grad.length) :
    ∃ g, sqNormGrad f scale grad = .ok g ∧ g.length = grad.length ∧
      (∀ k < f.num, HasDerivAt (fun t => f.map.slope * (scale * ∫ x, (f.setCf k t).val x ^ 2 * dens f.map x)) (g.getD k 0 - grad.getD k 0) (f.coeff.getD k 0)) ∧
      ∀ k, f.num ≤ k → g.getD k 0 = grad.getD k 0 := by
  obtain ⟨g, e, l, h1, h2⟩ := addLoop' (n := f.num) (grad := grad) (fun ii => 2 * scale * f.coeff.getD ii 0 * f.fam.norm ii * f.map.slope) hg
    (body := fun ii g => do
      let v ← rd g ii
      let c ← rd f.coeff ii
      wr g ii (v + 2 * scale * c * f.fam.norm ii * f.map.slope))
    (fun i hi g hl => by rw [rd_getD 0 (by omega), bind_ok, hf.rdc hi, bind_ok, wr_ok _ (by omega)])
  refine ⟨g, ?_, l, fun k hk' => ?_, h2⟩
  · rw [sqNormGrad, hk, show cassert (!false) = .ok () from rfl, bind_ok, show f.fam.pt = .herm by rw [hfam]; rfl]; exact e
  · have e3 : ∀ t, ∫ x, (f.setCf k t).val x ^ 2 * dens f.map x =
        ∑ i ∈ range f.num, (f.setCf k t).coeff.getD i 0 * (f.setCf k t).coeff.getD i 0 * 1 := fun t =>
      sq_herm (setCf_wf hf k t) hfam hs
    simp only [e3]
    have := ((quad_deriv hf hk' (fun _ => (1 : ℝ))).const_mul scale).const_mul f.map.slope
    rw [show g.getD k 0 - grad.getD k 0 = f.map.slope * (scale * (2 * f.coeff.getD k 0 * 1)) by
      rw [h1 k hk', hfam, show (hermFam big).norm k = 1 from rfl]; ring]
    exact this

/-- The identity for a normal variable of standard deviation 2. -/
noncomputable def hermTwo : Ope ℝ := ⟨hermFam 9, 2, -9, 9, ⟨1 / 2, 0, 2, 0⟩, 2, [0, 2], false⟩

/-- C75 fails for Hermite expansions with standard deviation 2: the derivative with respect to the second coefficient is 4, the entry added is 2. -/
theorem sqNormGrad_herm_counterexample :
    (∃ g, sqNormGrad hermTwo 1 [0, 0] = .ok g ∧ g.getD 1 0 = 2) ∧
      HasDerivAt (fun t => ∫ x, (hermTwo.setCf 1 t).val x ^ 2 * dens hermTwo.map x) 4 2 := by
  have hf : hermTwo.WF := ⟨by simp [hermTwo], by simp [hermTwo], by simp [hermTwo], fun h => by simp [hermTwo, hermFam] at h⟩
  have hs : 0 < hermTwo.map.slope := by norm_num [hermTwo]
  constructor
  · refine ⟨[0, 2], ?_, rfl⟩
    simp [sqNormGrad, hermTwo, cassert, forN, rd, wr, hermFam, bind, Except.bind]
  · have e3 : ∀ t, ∫ x, (hermTwo.setCf 1 t).val x ^ 2 * dens hermTwo.map x =
        ∑ i ∈ range hermTwo.num, (hermTwo.setCf 1 t).coeff.getD i 0 * (hermTwo.setCf 1 t).coeff.getD i 0 * 1 := fun t =>
      sq_herm (setCf_wf hf 1 t) rfl hs
    simp only [e3]
    have := quad_deriv hf (k := 1) (by simp [hermTwo]) (fun _ => (1 : ℝ))
    have e4 : hermTwo.coeff.getD 1 0 = 2 := rfl
    rw [e4, show (2 : ℝ) * 2 * 1 = 4 by norm_num] at this
    exact this

/-- The zero function as a Chebyshev expansion on `[-1, 1]`. -/
noncomputable def chebZero : Ope ℝ := ⟨chebFam π, 1, -1, 1, ⟨1, 0, 1, 0⟩, 1, [0], false⟩

/-- C75 fails for Chebyshev expansions: the coefficients do not enter the result, so that the gradient at the zero function, which minimises the norm,
is returned as 8. -/
theorem sqNormGrad_cheb_counterexample :
    (∃ g, sqNormGrad chebZero 1 [0] = .ok g ∧ g.getD 0 0 = 8) ∧
      HasDerivAt (fun t => ∫ x in (-1 : ℝ)..1, (chebZero.setCf 0 t).val x ^ 2) 0 0 := by
  constructor
  · refine ⟨[8], ?_, rfl⟩
    simp [sqNormGrad, chebGradEntry, chebZero, cassert, forN, rd, wr, chebFam, bind, Except.bind, pure, Except.pure, C3.Lin.dv]
    norm_num
  · have e : ∀ t, ∫ x in (-1 : ℝ)..1, (chebZero.setCf 0 t).val x ^ 2 = 2 * t ^ 2 := fun t => by
      have : ∀ x, (chebZero.setCf 0 t).val x = t := fun x => by simp [Ope.val, Ope.setCf, chebZero, chebFam]
      simp only [this]
      rw [intervalIntegral.integral_const, smul_eq_mul]; ring
    simp only [e]
    have := ((hasDerivAt_id (0 : ℝ)).pow 2).const_mul 2
    simpa using this

/-- C75: the inner products of the basis functions with `b`, written for every coefficient of `a`. For Legendre expansions they are means over the interval. -/
theorem paramGradInner_value {a b : Ope ℝ} (hb : b.WF) (hfam : a.fam.pt = b.fam.pt) {vals : List ℝ} (hv : a.num ≤ vals.length) :
    ∃ g, paramGradInner a b vals = .ok (a.num, g) ∧ g.length = vals.length ∧ ∀ k < a.num, g.getD k 0 = b.cf k := by
  set n := if a.num > b.num then b.num else a.num with hn
  have hna : n ≤ a.num := by rw [hn]; split <;> omega
  have hnb : n ≤ b.num := by rw [hn]; split <;> omega
  have hbl := hb.num_le.trans hb.alloc_le
  obtain ⟨v, e, l, h1, h2⟩ := forN_window (n := n) (off := 0) (a := vals) (fun k _ => b.coeff.getD k 0) (by omega)
    (body := fun ii v => do
      let c ← rd b.coeff ii
      wr v ii c)
    (fun i hi c hc => by rw [hb.rdc (by omega), bind_ok, wr_ok _ (by omega), Nat.zero_add])
  obtain ⟨w, e', l', h1', h2'⟩ := forR_window (h := fun _ _ => (0 : ℝ)) (lo := n) (hi := a.num) (a := v) hna (by omega)
    (body := fun ii v => wr v ii 0) (fun i h1 h2 c hc => by rw [wr_ok _ (by omega)])
  refine ⟨w, ?_, by omega, fun k hk => ?_⟩
  · rw [paramGradInner, cassert_of (by simpa using hfam), bind_ok]
    simp only [← hn]
    rw [e, bind_ok, e', bind_ok]; rfl
  · by_cases hkn : k < n
    · rw [h2' k (Or.inl hkn)]
      have := h1 k hkn
      rw [Nat.zero_add] at this
      rw [this, Ope.cf, if_pos (by omega)]
    · rw [h1' k (by omega) hk, Ope.cf, if_neg (by rw [hn] at hkn; split at hkn <;> omega)]

/-- C75: for Hermite expansions these are the derivatives of the inner product with `b`. -/
theorem paramGradInner_herm {a b : Ope ℝ} (hb : b.WF) (hfa : a.fam = hermFam big) (hfb : b.fam = hermFam big) (hs : 0 < b.map.slope)
    {vals : List ℝ} (hv : a.num ≤ vals.length) :
    ∃ g, paramGradInner a b vals = .ok (a.num, g) ∧
      ∀ k < a.num, g.getD k 0 = ∫ x, b.val x * b.fam.p k (b.map.slope * x + b.map.off) * dens b.map x := by
  obtain ⟨g, e, -, h⟩ := paramGradInner_value (a := a) hb (by rw [hfa, hfb]) hv
  exact ⟨g, e, fun k hk => by rw [h k hk, herm_int hfb hs]⟩

/-- The constant 1 as a Legendre expansion on `[-1, 1]`. -/
noncomputable def legOne : Ope ℝ := ⟨legFam, 1, -1, 1, ⟨1, 0, 1, 0⟩, 1, [1], false⟩

/-- C75 fails for Legendre expansions: on `[-1, 1]` the inner product of the function `t` with 1 is `2 t`, but its derivative is returned as 1. -/
theorem paramGradInner_leg_counterexample (other : Ope ℝ → Ope ℝ → C ℝ) :
    (∀ t, inner other (legOne.setCf 0 t) legOne = .ok (2 * t)) ∧ paramGradInner legOne legOne [0] = .ok (1, [1]) := by
  constructor
  · intro t
    simp [inner, innerW, legOne, Ope.setCf, cassert, forN, rd, legFam, bind, Except.bind, pure, Except.pure]
    ring
  · simp [paramGradInner, legOne, cassert, forR, forN, rd, wr, legFam, bind, Except.bind, pure, Except.pure]

/-! ### Weighted coefficient norms -/

theorem rkhs_sum {pw : ℝ → ℝ → ℝ} {f : Ope ℝ} {d : Decay} {par : ℝ} :
    (∑ k ∈ range f.num, f.coeff.getD k 0 * f.coeff.getD k 0 * decayFac pw d par k * 1) =
    ∑ k ∈ range f.num, f.coeff.getD k 0 * f.coeff.getD k 0 * decayFac pw d par k := sum_congr rfl fun _ _ => mul_one _

/-- C75: for Hermite expansions the norm with decaying weights is `Σ_k w_k c_k²` and the gradient call adds `scale` times its derivative. -/
theorem rkhs_herm (pw : ℝ → ℝ → ℝ) (c1 : Ope ℝ → C ℝ) (c2 : Ope ℝ → List ℝ → C (List ℝ)) {f : Ope ℝ} (hf : f.WF) (hfam : f.fam = hermFam big) (hk : f.krist = false)
    (scale : ℝ) (d : Decay) (par : ℝ) {grad : List ℝ} (hg : f.num ≤ grad.length) :
    (∀ k t, k < f.num → rkhsNorm pw c1 (f.setCf k t) d par =
      .ok (∑ i ∈ range f.num, (f.setCf k t).coeff.getD i 0 * (f.setCf k t).coeff.getD i 0 * decayFac pw d par i)) ∧
    ∃ g, rkhsGrad pw c2 f scale d par grad = .ok g ∧ g.length = grad.length ∧
      (∀ k < f.num, HasDerivAt (fun t => scale * ∑ i ∈ range f.num, (f.setCf k t).coeff.getD i 0 * (f.setCf k t).coeff.getD i 0 * decayFac pw d par i)
        (g.getD k 0 - grad.getD k 0) (f.coeff.getD k 0)) ∧ ∀ k, f.num ≤ k → g.getD k 0 = grad.getD k 0 := by
  have hpt : f.fam.pt = .herm := by rw [hfam]; rfl
  constructor
  · intro k t _
    have hw := setCf_wf hf k t
    rw [rkhsNorm, show (f.setCf k t).krist = false from hk, show cassert (!false) = .ok () from rfl, bind_ok, show (f.setCf k t).fam.pt = .herm from hpt]
    refine (forN_sum (n := f.num) (s0 := 0) (g := fun i => (f.setCf k t).coeff.getD i 0 * (f.setCf k t).coeff.getD i 0 * decayFac pw d par i)
      (fun i hi s => ?_)).trans (by simp)
    rw [hw.rdc hi, bind_ok, show (f.setCf k t).fam = hermFam big from hfam, show (hermFam big).norm i = 1 from rfl, mul_one]; rfl
  · obtain ⟨g, e, l, h1, h2⟩ := addLoop' (n := f.num) (grad := grad) (fun ii => 2 * scale * f.coeff.getD ii 0 * decayFac pw d par ii) hg
      (body := fun ii g => do
        let v ← rd g ii
        let c ← rd f.coeff ii
        wr g ii (v + 2 * scale * c * decayFac pw d par ii))
      (fun i hi g hl => by rw [rd_getD 0 (by omega), bind_ok, hf.rdc hi, bind_ok, wr_ok _ (by omega)])
    refine ⟨g, ?_, l, fun k hk' => ?_, h2⟩
    · rw [rkhsGrad, hk, show cassert (!false) = .ok () from rfl, bind_ok, hpt]; exact e
    · have := (quad_deriv hf hk' (fun i => decayFac pw d par i)).const_mul scale
      rw [show g.getD k 0 - grad.getD k 0 = scale * (2 * f.coeff.getD k 0 * decayFac pw d par k) by rw [h1 k hk']; ring]
      exact this

/-- C75: the weights are the documented ones: `par^k` for algebraic decay, `(k+1)^(-par)` for exponential decay, 1 without decay. -/
theorem rkhs_herm_weights (c1 : Ope ℝ → C ℝ) {f : Ope ℝ} (hf : f.WF) (hfam : f.fam = hermFam big) (hk : f.krist = false) (par : ℝ) :
    rkhsNorm (fun a b => a ^ b) c1 f .alg par = .ok (∑ i ∈ range f.num, f.coeff.getD i 0 ^ 2 * par ^ i) ∧
    rkhsNorm (fun a b => a ^ b) c1 f .exp par = .ok (∑ i ∈ range f.num, f.coeff.getD i 0 ^ 2 * ((i : ℝ) + 1) ^ (-par)) ∧
    rkhsNorm (fun a b => a ^ b) c1 f .none par = .ok (∑ i ∈ range f.num, f.coeff.getD i 0 ^ 2) := by
  have h : ∀ d, rkhsNorm (fun a b => a ^ b) c1 f d par = .ok (∑ i ∈ range f.num, f.coeff.getD i 0 * f.coeff.getD i 0 * decayFac (fun a b => a ^ b) d par i) := fun d => by
    rw [rkhsNorm, hk, show cassert (!false) = .ok () from rfl, bind_ok, show f.fam.pt = .herm by rw [hfam]; rfl]
    refine (forN_sum (n := f.num) (s0 := 0) (g := fun i => f.coeff.getD i 0 * f.coeff.getD i 0 * decayFac (fun a b => a ^ b) d par i) (fun i hi s => ?_)).trans (by simp)
    rw [hf.rdc hi, bind_ok, hfam, show (hermFam big).norm i = 1 from rfl, mul_one]; rfl
  refine ⟨(h _).trans ?_, (h _).trans ?_, (h _).trans ?_⟩
  · simp only [sq]; rfl
  · simp only [sq]; rfl
  · simp only [sq, decayFac, mul_one]

/-- C75 fails for Legendre expansions with decaying weights: the norm carries a factor twice the slope of the mapping that the gradient lacks. On `[-1, 1]`, with
all weights 1: norm `2 t²`, gradient `2 t` in place of `4 t`. -/
theorem rkhs_leg_counterexample (pw : ℝ → ℝ → ℝ) (c1 : Ope ℝ → C ℝ) (c2 : Ope ℝ → List ℝ → C (List ℝ)) (t : ℝ) :
    rkhsNorm pw c1 (legOne.setCf 0 t) .none 0 = .ok (2 * t ^ 2) ∧ rkhsGrad pw c2 (legOne.setCf 0 t) 1 .none 0 [0] = .ok [2 * t] := by
  constructor
  · simp [rkhsNorm, legOne, Ope.setCf, cassert, forN, rd, legFam, decayFac, bind, Except.bind, pure, Except.pure]
    ring
  · simp [rkhsGrad, legOne, Ope.setCf, cassert, forN, rd, wr, legFam, decayFac, bind, Except.bind]

/-! ### Concrete cases of the hypotheses -/

/-- A Legendre expansion on `[0, 4]`. -/
noncomputable def exLeg : Ope ℝ := ⟨legFam, 3, 0, 4, ⟨1 / 2, -1, 2, 2⟩, 4, [1, 2, 3, 0], false⟩

theorem exLeg_wf : exLeg.WF := ⟨by simp [exLeg], by simp [exLeg], by simp [exLeg], fun h => by simp [exLeg, legFam] at h⟩
theorem exLeg_int : OnInt exLeg := ⟨by norm_num [exLeg], by norm_num [exLeg], by norm_num [exLeg], by norm_num [exLeg]⟩

example : integrate exLeg = .ok 4 := by
  simp [integrate, legIntegrate, exLeg, legFam, rd, bind, Except.bind, pure, Except.pure]; norm_num

example : ∫ x in (0 : ℝ)..4, exLeg.val x = 4 := by
  have h := integrate_leg exLeg_wf rfl exLeg_int
  simp only [integrate, legIntegrate, exLeg, legFam, rd] at h
  have h2 := Except.ok.inj h
  simp only [exLeg, legFam] at h2 ⊢
  rw [← h2]; norm_num

example (other : Ope ℝ → Ope ℝ → C ℝ) : inner other exLeg exLeg = .ok (∫ x in (0 : ℝ)..4, exLeg.val x * exLeg.val x) :=
  inner_leg other exLeg_wf exLeg_wf rfl rfl exLeg_int rfl

example : ∃ g, sqNormGrad exLeg 3 [1, 1, 1] = .ok g ∧ HasDerivAt (fun t => 3 * ∫ x in (0 : ℝ)..4, (exLeg.setCf 2 t).val x ^ 2) (g.getD 2 0 - 1) 3 := by
  obtain ⟨g, e, -, h, -⟩ := sqNormGrad_leg exLeg_wf rfl rfl exLeg_int 3 (grad := [1, 1, 1]) (by simp [exLeg])
  exact ⟨g, e, h 2 (by simp [exLeg])⟩

theorem hermTwo_wf : hermTwo.WF := ⟨by simp [hermTwo], by simp [hermTwo], by simp [hermTwo], fun h => by simp [hermTwo, hermFam] at h⟩

example : integrate hermTwo = .ok (∫ x, hermTwo.val x * dens hermTwo.map x) := integrate_herm hermTwo_wf rfl (by norm_num [hermTwo])

example (other : Ope ℝ → Ope ℝ → C ℝ) : inner other hermTwo hermTwo = .ok (∫ x, hermTwo.val x * hermTwo.val x * dens hermTwo.map x) :=
  inner_herm other hermTwo_wf hermTwo_wf rfl rfl (by norm_num [hermTwo]) rfl

/-- A Chebyshev expansion on `[0, 2]`. -/
noncomputable def exChebR : Ope ℝ := ⟨chebFam π, 3, 0, 2, ⟨1, -1, 1, 1⟩, 3, [1, 2, 3], false⟩

example : integrate exChebR = .ok (∫ x in (0 : ℝ)..2, exChebR.val x) :=
  integrate_cheb ⟨by simp [exChebR], by simp [exChebR], by simp [exChebR], fun _ => ⟨π, rfl⟩⟩ rfl
    ⟨by norm_num [exChebR], by norm_num [exChebR], by norm_num [exChebR], by norm_num [exChebR]⟩

end C3.Poly

/- Integrals, inner products and norms of expansions (properties C73, C74). -/
import Verif.Poly.Integ
import Verif.Poly.AlgProps
import Verif.Poly.Legendre
import Verif.Poly.Hermite
import Verif.Poly.GaussProps
import Verif.Quad.CosSum

set_option linter.unusedSectionVars false

namespace C3.Poly
open Finset Real MeasureTheory

/-- The stored mapping takes `[lb, ub]` to `[-1, 1]`, and the stored inverse slope is the inverse. -/
structure OnInt (f : Ope ℝ) : Prop where
  lt : f.lb < f.ub
  lo : f.map.slope * f.lb + f.map.off = -1
  hi : f.map.slope * f.ub + f.map.off = 1
  inv : f.map.islope * f.map.slope = 1

theorem OnInt.slope {f : Ope ℝ} (h : OnInt f) : f.map.slope = 2 / (f.ub - f.lb) := by
  rw [eq_div_iff (by linarith [h.lt])]; linarith [h.lo, h.hi]

theorem OnInt.islope {f : Ope ℝ} (h : OnInt f) : f.map.islope = (f.ub - f.lb) / 2 := by
  have h0 : f.ub - f.lb ≠ 0 := by linarith [h.lt]
  have := h.inv
  rw [h.slope] at this
  field_simp at this
  linarith

theorem OnInt.ne {f : Ope ℝ} (h : OnInt f) : f.map.slope ≠ 0 := fun c => by have := h.inv; rw [c, mul_zero] at this; exact zero_ne_one this

theorem int_comp {f : Ope ℝ} (h : OnInt f) (g : ℝ → ℝ) :
    ∫ x in f.lb..f.ub, g (f.map.slope * x + f.map.off) = f.map.islope * ∫ x in (-1 : ℝ)..1, g x := by
  rw [intervalIntegral.integral_comp_mul_add g h.ne, h.lo, h.hi, smul_eq_mul]
  congr 1
  rw [inv_eq_iff_eq_inv]
  exact eq_inv_of_mul_eq_one_left ((mul_comm _ _).trans h.inv)

theorem val_integral {f : Ope ℝ} (h : OnInt f) :
    ∫ x in f.lb..f.ub, f.val x = ∑ k ∈ range f.num, f.coeff.getD k 0 * (f.map.islope * ∫ x in (-1 : ℝ)..1, f.fam.p k x) := by
  have hc : ∀ k, Continuous fun x => f.fam.p k (f.map.slope * x + f.map.off) := fun k =>
    (p_continuous f.fam k).comp (by fun_prop : Continuous fun x => f.map.slope * x + f.map.off)
  simp only [Ope.val]
  rw [intervalIntegral.integral_finsetSum fun k _ => ((hc k).const_mul _).intervalIntegrable _ _]
  exact sum_congr rfl fun k _ => by rw [intervalIntegral.integral_const_mul, int_comp h (f.fam.p k)]

/-- C73: the integral of a Legendre expansion. -/
theorem integrate_leg {f : Ope ℝ} (hf : f.WF) (hfam : f.fam = legFam) (h : OnInt f) : integrate f = .ok (∫ x in f.lb..f.ub, f.val x) := by
  have e : ∫ x in f.lb..f.ub, f.val x = f.coeff.getD 0 0 * 2 * f.map.islope := by
    rw [val_integral h, hfam]
    have hp := hf.pos
    rw [show ∑ k ∈ range f.num, f.coeff.getD k 0 * (f.map.islope * ∫ x in (-1 : ℝ)..1, legFam.p k x) =
      ∑ k ∈ range f.num, if k = 0 then f.coeff.getD 0 0 * 2 * f.map.islope else 0 from sum_congr rfl fun k _ => by
        have := leg_mean k
        split
        · rename_i hk; subst hk
          rw [if_pos rfl] at this
          linear_combination (2 * f.coeff.getD 0 0 * f.map.islope) * this
        · rename_i hk
          rw [if_neg hk] at this
          linear_combination (2 * f.coeff.getD k 0 * f.map.islope) * this]
    rw [sum_ite_eq' (range f.num) 0, if_pos (mem_range.2 hp)]
  rw [integrate, hfam]
  show legIntegrate f = _
  rw [legIntegrate, hf.rdc hf.pos, bind_ok, e]; rfl

/-- C73: the integral of a Chebyshev expansion. -/
theorem integrate_cheb {pi : ℝ} {f : Ope ℝ} (hf : f.WF) (hfam : f.fam = chebFam pi) (h : OnInt f) : integrate f = .ok (∫ x in f.lb..f.ub, f.val x) := by
  obtain ⟨s, e, hs⟩ := forN_spec (n := (f.num + 1) / 2) (s := (0 : ℝ))
    (body := fun i out => do
      let c ← rd f.coeff (2 * i)
      let q ← C3.Lin.dv (c * 2) (1 - ((2 * i * (2 * i) : Nat) : ℝ))
      pure (out + q))
    (I := fun m s => s = ∑ i ∈ range m, f.coeff.getD (2 * i) 0 * 2 / (1 - ((2 * i * (2 * i) : Nat) : ℝ)))
    (by simp)
    (by
      rintro i hi _ rfl
      have h0 : (1 : ℝ) - ((2 * i * (2 * i) : Nat) : ℝ) ≠ 0 := by
        intro c
        have : ((2 * i * (2 * i) : Nat) : ℝ) = ((1 : Nat) : ℝ) := by push_cast at c ⊢; linarith
        have := Nat.cast_injective this
        have := Nat.eq_one_of_mul_eq_one_left this
        omega
      exact ⟨_, by rw [hf.rdc (by omega), bind_ok, C3.Lin.dv_ok h0, bind_ok]; rfl, by rw [sum_range_succ]⟩)
  have e2 : ∫ x in f.lb..f.ub, f.val x = s * f.map.islope := by
    rw [val_integral h, hs, hfam]
    simp only [cheb_p, C3.Quad.integral_T]
    have key : ∀ N : Nat, ∑ k ∈ range N, f.coeff.getD k 0 * (f.map.islope * if k % 2 = 0 then 2 / (1 - (k : ℝ) ^ 2) else 0) =
        (∑ i ∈ range ((N + 1) / 2), f.coeff.getD (2 * i) 0 * 2 / (1 - ((2 * i * (2 * i) : Nat) : ℝ))) * f.map.islope := by
      intro N
      induction N with
      | zero => simp
      | succ N ih =>
        rw [sum_range_succ, ih]
        by_cases hN : N % 2 = 0
        · obtain ⟨m, rfl⟩ : ∃ m, N = 2 * m := ⟨N / 2, by omega⟩
          rw [if_pos hN, show (2 * m + 1 + 1) / 2 = (2 * m + 1) / 2 + 1 by omega, sum_range_succ, show (2 * m + 1) / 2 = m by omega]
          push_cast
          rw [show (2 * (m : ℝ)) ^ 2 = 2 * m * (2 * m) by ring]
          ring
        · rw [if_neg hN, show (N + 1 + 1) / 2 = (N + 1) / 2 by omega]; ring
    exact key f.num
  rw [integrate, hfam]
  show chebIntegrate f = _
  rw [chebIntegrate, e, bind_ok, e2]; rfl

/-! ### Hermite -/

/-- Density of the variable whose mapped value is standard normal. -/
noncomputable def dens (m : SMap ℝ) (x : ℝ) : ℝ := m.slope * phi (m.slope * x + m.off)

theorem dens_comp {m : SMap ℝ} (hs : 0 < m.slope) (g : ℝ → ℝ) :
    ∫ x, g (m.slope * x + m.off) * dens m x = ∫ x, g x * phi x := by
  have h1 : ∫ x, g (m.slope * x + m.off) * dens m x = m.slope * ∫ x, (fun y => g (y + m.off) * phi (y + m.off)) (m.slope * x) := by
    rw [← integral_const_mul]
    exact integral_congr_ae (Filter.Eventually.of_forall fun x => by simp only [dens]; ring)
  rw [h1, Measure.integral_comp_mul_left (fun y => g (y + m.off) * phi (y + m.off)), integral_add_right_eq_self (fun y => g y * phi y), smul_eq_mul,
    abs_of_pos (inv_pos.2 hs), ← mul_assoc, mul_inv_cancel₀ hs.ne', one_mul]

variable {big : ℝ}

theorem herm_int {f : Ope ℝ} (hfam : f.fam = hermFam big) (hs : 0 < f.map.slope) (w : Nat) :
    ∫ x, f.val x * f.fam.p w (f.map.slope * x + f.map.off) * dens f.map x = f.cf w := by
  have h1 := dens_comp hs (fun y => (∑ k ∈ range f.num, f.coeff.getD k 0 * f.fam.p k y) * f.fam.p w y)
  refine h1.trans ?_
  rw [hfam]
  have h2 : ∀ x, (∑ k ∈ range f.num, f.coeff.getD k 0 * (hermFam big).p k x) * (hermFam big).p w x * phi x =
      ∑ k ∈ range f.num, f.coeff.getD k 0 * ((hermFam big).p k x * (hermFam big).p w x * phi x) := fun x => by
    rw [sum_mul, sum_mul]; exact sum_congr rfl fun k _ => by ring
  simp only [h2]
  rw [integral_finsetSum _ fun k _ => (((isPoly_p (hermFam big) k).mul (isPoly_p (hermFam big) w)).integrable).const_mul _]
  simp only [integral_const_mul, herm_orthonormal]
  rw [Ope.cf]
  simp only [mul_ite, mul_one, mul_zero]
  rw [sum_ite_eq' (range f.num) w]
  simp only [mem_range]

/-- C73: the integral of a Hermite expansion is its expectation. -/
theorem integrate_herm {f : Ope ℝ} (hf : f.WF) (hfam : f.fam = hermFam big) (hs : 0 < f.map.slope) :
    integrate f = .ok (∫ x, f.val x * dens f.map x) := by
  have := herm_int hfam hs 0
  rw [hfam] at this
  simp only [Fam.p_zero, show (hermFam big).c0 = 1 from rfl, mul_one] at this
  rw [integrate, hfam]
  show rd f.coeff 0 = _
  rw [hf.rdc hf.pos, this, Ope.cf, if_pos (by have := hf.pos; omega)]

/-! ### Inner products -/

theorem innerW_ok {a b : Ope ℝ} (ha : a.WF) (hb : b.WF) (hfam : a.fam.pt = b.fam.pt) :
    innerW a b = .ok (∑ k ∈ range (min a.num b.num), a.coeff.getD k 0 * b.coeff.getD k 0 * a.fam.norm k) := by
  have hm : (if a.num < b.num then a.num else b.num) = min a.num b.num := by split <;> omega
  rw [innerW, cassert_of (by simpa using hfam), bind_ok, hm]
  have h1 := Nat.min_le_left a.num b.num
  have h2 := Nat.min_le_right a.num b.num
  exact forN_sum (n := min a.num b.num) (g := fun k => a.coeff.getD k 0 * b.coeff.getD k 0 * a.fam.norm k) (s0 := 0)
    (fun i hi s => by rw [ha.rdc (by omega), bind_ok, hb.rdc (by omega), bind_ok]; rfl) |>.trans (by simp)

theorem cf_sum {a b : Ope ℝ} (w : Nat → ℝ) :
    ∑ j ∈ range a.num, ∑ k ∈ range b.num, a.coeff.getD j 0 * b.coeff.getD k 0 * (if j = k then w k else 0) =
      ∑ k ∈ range (min a.num b.num), a.coeff.getD k 0 * b.coeff.getD k 0 * w k := by
  have h1 : ∀ j ∈ range a.num, ∑ k ∈ range b.num, a.coeff.getD j 0 * b.coeff.getD k 0 * (if j = k then w k else 0) =
      if j < b.num then a.coeff.getD j 0 * b.coeff.getD j 0 * w j else 0 := fun j _ => by
    simp only [mul_ite, mul_zero]
    rw [sum_ite_eq (range b.num) j]; simp only [mem_range]
  rw [sum_congr rfl h1, ← sum_filter]
  refine sum_congr ?_ fun _ _ => rfl
  ext k; simp only [mem_filter, mem_range]; omega

theorem prod_integral {a b : Ope ℝ} (h : OnInt a) (hmap : b.map = a.map) (hfam : b.fam = a.fam) :
    ∫ x in a.lb..a.ub, a.val x * b.val x = ∑ j ∈ range a.num, ∑ k ∈ range b.num, a.coeff.getD j 0 * b.coeff.getD k 0 *
      (a.map.islope * ∫ x in (-1 : ℝ)..1, a.fam.p j x * a.fam.p k x) := by
  have e : ∀ x, a.val x * b.val x = ∑ j ∈ range a.num, ∑ k ∈ range b.num, a.coeff.getD j 0 * b.coeff.getD k 0 *
      (fun y => a.fam.p j y * a.fam.p k y) (a.map.slope * x + a.map.off) := fun x => by
    simp only [Ope.val, hmap, hfam]
    rw [sum_mul_sum]
    exact sum_congr rfl fun j _ => sum_congr rfl fun k _ => by ring
  simp only [e]
  have hc : ∀ j k, Continuous fun x => (fun y => a.fam.p j y * a.fam.p k y) (a.map.slope * x + a.map.off) := fun j k =>
    ((p_continuous a.fam j).mul (p_continuous a.fam k)).comp (by fun_prop : Continuous fun x => a.map.slope * x + a.map.off)
  rw [intervalIntegral.integral_finsetSum fun j _ => (continuous_finsetSum _ fun k _ => (hc j k).const_mul _).intervalIntegrable _ _]
  refine sum_congr rfl fun j _ => ?_
  rw [intervalIntegral.integral_finsetSum fun k _ => ((hc j k).const_mul _).intervalIntegrable _ _]
  exact sum_congr rfl fun k _ => by rw [intervalIntegral.integral_const_mul, int_comp h (fun y => a.fam.p j y * a.fam.p k y)]

/-- C74: the inner product of two Legendre expansions on one interval is the integral of the product. -/
theorem inner_leg (other : Ope ℝ → Ope ℝ → C ℝ) {a b : Ope ℝ} (ha : a.WF) (hb : b.WF) (hfa : a.fam = legFam) (hfb : b.fam = legFam) (h : OnInt a)
    (hmap : b.map = a.map) : inner other a b = .ok (∫ x in a.lb..a.ub, a.val x * b.val x) := by
  have hpt : a.fam.pt = .leg := by rw [hfa]; rfl
  have hpb : b.fam.pt = .leg := by rw [hfb]; rfl
  have e := innerW_ok ha hb (hpt.trans hpb.symm)
  rw [inner, if_neg (by rw [hpt]; simp), if_neg (by rw [hpt, hpb]; simp), if_neg (by rw [hpt, hpb]; simp), e, bind_ok, prod_integral h hmap (hfb.trans hfa.symm)]
  have h2 : ∀ j k, a.map.islope * ∫ x in (-1 : ℝ)..1, a.fam.p j x * a.fam.p k x = if j = k then (a.ub - a.lb) else 0 := fun j k => by
    have := leg_orthonormal j k
    rw [h.islope, hfa]
    split
    · rename_i hjk; rw [if_pos hjk] at this; linear_combination (a.ub - a.lb) * this
    · rename_i hjk; rw [if_neg hjk] at this; linear_combination (a.ub - a.lb) * this
  simp only [h2]
  rw [cf_sum (fun _ => a.ub - a.lb), sum_mul, hfa]
  show Except.ok _ = Except.ok _
  congr 1
  exact sum_congr rfl fun k _ => by rw [show legFam.norm k = 1 from rfl, mul_one]

/-- C74: the weighted inner product of two Legendre expansions is the mean of the product. -/
theorem innerW_leg {a b : Ope ℝ} (ha : a.WF) (hb : b.WF) (hfa : a.fam = legFam) (hfb : b.fam = legFam) (h : OnInt a)
    (hmap : b.map = a.map) : innerW a b = .ok ((∫ x in a.lb..a.ub, a.val x * b.val x) / (a.ub - a.lb)) := by
  have hpt : a.fam.pt = .leg := by rw [hfa]; rfl
  have hpb : b.fam.pt = .leg := by rw [hfb]; rfl
  have h1 := inner_leg (fun _ _ => .error .ub) ha hb hfa hfb h hmap
  have e := innerW_ok ha hb (hpt.trans hpb.symm)
  rw [inner, if_neg (by rw [hpt]; simp), if_neg (by rw [hpt, hpb]; simp), if_neg (by rw [hpt, hpb]; simp), e, bind_ok] at h1
  have h0 : a.ub - a.lb ≠ 0 := by linarith [h.lt]
  rw [e, ← Except.ok.inj h1]
  congr 1
  rw [mul_div_cancel_right₀ _ h0]

/-- C74: the inner product of two Hermite expansions with one mapping is the expectation of the product. -/
theorem inner_herm (other : Ope ℝ → Ope ℝ → C ℝ) {a b : Ope ℝ} (ha : a.WF) (hb : b.WF) (hfa : a.fam = hermFam big) (hfb : b.fam = hermFam big)
    (hs : 0 < a.map.slope) (hmap : b.map = a.map) : inner other a b = .ok (∫ x, a.val x * b.val x * dens a.map x) := by
  have hpt : a.fam.pt = .herm := by rw [hfa]; rfl
  have hpb : b.fam.pt = .herm := by rw [hfb]; rfl
  rw [inner, if_pos ⟨hpt, hpb⟩, innerW_ok ha hb (hpt.trans hpb.symm)]
  congr 1
  have e : ∀ x, a.val x * b.val x * dens a.map x = ∑ k ∈ range b.num, b.coeff.getD k 0 *
      (a.val x * a.fam.p k (a.map.slope * x + a.map.off) * dens a.map x) := fun x => by
    rw [show b.val x = ∑ k ∈ range b.num, b.coeff.getD k 0 * a.fam.p k (a.map.slope * x + a.map.off) by rw [Ope.val, hmap, hfb, hfa], mul_sum, sum_mul]
    exact sum_congr rfl fun k _ => by ring
  have hint : ∀ k, Integrable fun x => a.val x * a.fam.p k (a.map.slope * x + a.map.off) * dens a.map x := fun k => by
    have h1 : IsPoly fun y => (∑ j ∈ range a.num, a.coeff.getD j 0 * a.fam.p j y) * a.fam.p k y := by
      refine IsPoly.mul ?_ (isPoly_p _ k)
      choose q hq using fun j => isPoly_p a.fam j
      exact ⟨∑ j ∈ range a.num, Polynomial.C (a.coeff.getD j 0) * q j, fun x => by
        rw [Polynomial.eval_finsetSum]; exact sum_congr rfl fun j _ => by rw [Polynomial.eval_mul, Polynomial.eval_C, hq]⟩
    have h2 := ((h1.integrable.comp_add_right a.map.off).comp_mul_left' hs.ne').const_mul a.map.slope
    refine h2.congr (Filter.Eventually.of_forall fun x => ?_)
    simp only [dens, Ope.val]; ring
  simp only [e]
  rw [integral_finsetSum _ fun k _ => (hint k).const_mul _]
  simp only [integral_const_mul, herm_int hfa hs]
  rw [show ∑ k ∈ range b.num, b.coeff.getD k 0 * a.cf k = ∑ k ∈ range b.num, if k < a.num then a.coeff.getD k 0 * b.coeff.getD k 0 * a.fam.norm k else 0 from
    sum_congr rfl fun k _ => by
      rw [Ope.cf, hfa, show (hermFam big).norm k = 1 from rfl]; split <;> ring]
  rw [← sum_filter]
  refine sum_congr ?_ fun _ _ => rfl
  ext k; simp only [mem_filter, mem_range]; omega

end C3.Poly

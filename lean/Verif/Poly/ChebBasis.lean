/- The orthonormal basis of Chebyshev expansions by Gram-Schmidt orthogonalization (property C124). -/
import Verif.Poly.BasisProps

set_option linter.unusedSectionVars false

namespace C3.Poly
open Finset Real
open C3.Lin (dv dv_ok)

/-! ### Leading coefficients and a lower bound of norms -/

/-- Leading coefficients of the basis polynomials. -/
def Fam.leadc (fam : Fam ℝ) : Nat → ℝ
  | 0 => fam.c0
  | 1 => fam.l1
  | n + 2 => fam.an (n + 2) * fam.leadc (n + 1)

theorem p_lead (fam : Fam ℝ) (n : Nat) : ∃ P : Polynomial ℝ, P.natDegree ≤ n ∧ P.coeff n = fam.leadc n ∧ ∀ x, P.eval x = fam.p n x := by
  induction n using Nat.strong_induction_on with
  | _ n ih =>
    match n with
    | 0 => exact ⟨.C fam.c0, by simp, by simp [Fam.leadc], fun x => by simp [Fam.p]⟩
    | 1 => exact ⟨.C fam.l0 + .C fam.l1 * .X, by compute_degree, by simp [Polynomial.coeff_C, Fam.leadc], fun x => by simp [Fam.p]⟩
    | n + 2 =>
      obtain ⟨P, p1, p2, p3⟩ := ih (n + 1) (by omega)
      obtain ⟨Q, q1, q2, q3⟩ := ih n (by omega)
      refine ⟨(.C (fam.an (n + 2)) * .X + .C (fam.bn (n + 2))) * P + .C (fam.cn (n + 2)) * Q, ?_, ?_, fun x => by simp [Fam.p, p3, q3]⟩
      · refine (Polynomial.natDegree_add_le _ _).trans (max_le ?_ ?_)
        · refine (Polynomial.natDegree_mul_le).trans ?_
          have : (Polynomial.C (fam.an (n + 2)) * Polynomial.X + Polynomial.C (fam.bn (n + 2))).natDegree ≤ 1 := by compute_degree
          omega
        · refine (Polynomial.natDegree_mul_le).trans ?_
          rw [Polynomial.natDegree_C]; omega
      · have e1 : P.coeff (n + 2) = 0 := Polynomial.coeff_eq_zero_of_natDegree_lt (by omega)
        have e2 : Q.coeff (n + 2) = 0 := Polynomial.coeff_eq_zero_of_natDegree_lt (by omega)
        rw [Polynomial.coeff_add, add_mul, Polynomial.coeff_add, mul_assoc, Polynomial.coeff_C_mul, Polynomial.coeff_X_mul,
          Polynomial.coeff_C_mul, Polynomial.coeff_C_mul, e1, e2, mul_zero, mul_zero, add_zero, add_zero, p2, Fam.leadc]

theorem lead_le (n : Nat) : 0 < legFam.leadc n ∧ legFam.leadc n ≤ √3 * (chebFam π).leadc n ∧ 0 < (chebFam π).leadc n := by
  have h3 : (1 : ℝ) ≤ √3 := by rw [Real.one_le_sqrt]; norm_num
  induction n using Nat.strong_induction_on with
  | _ n ih =>
    match n with
    | 0 => simpa [Fam.leadc, legFam, chebFam] using h3
    | 1 => simp [Fam.leadc, legFam, chebFam]
    | n + 2 =>
      obtain ⟨h1, h2, h4⟩ := ih (n + 1) (by omega)
      have ha : 0 < legFam.an (n + 2) := by
        simp only [legFam]
        refine div_pos (Real.sqrt_pos.2 ?_) (by positivity)
        push_cast; nlinarith [Nat.cast_nonneg (α := ℝ) n]
      have hb : legFam.an (n + 2) ≤ 2 := by
        simp only [legFam]
        rw [div_le_iff₀ (by positivity), Real.sqrt_le_left (by positivity)]
        nlinarith
      have hc : (chebFam π).an (n + 2) = 2 := rfl
      rw [Fam.leadc, Fam.leadc, hc]
      refine ⟨mul_pos ha h1, ?_, by linarith⟩
      nlinarith

/-- A Chebyshev expansion with coefficient 1 of the highest order has a norm of the order of the length of the domain. -/
theorem cheb_norm_ge {f : Ope ℝ} (hfam : f.fam = chebFam π) (h : OnInt f) {i : Nat} (hn : f.num ≤ i + 1) (hc : f.cf i = 1) :
    (f.ub - f.lb) / 3 ≤ ∫ x in f.lb..f.ub, f.val x * f.val x := by
  choose P p1 p2 p3 using p_lead (chebFam π)
  choose L l1 l2 l3 using p_lead legFam
  set q : Polynomial ℝ := ∑ k ∈ range (i + 1), .C (f.cf k) * P k with hq
  have hqd : q.degree < ((i + 1 : Nat) : WithBot Nat) := by
    refine lt_of_le_of_lt (Polynomial.degree_sum_le _ _) ?_
    refine (Finset.sup_lt_iff (WithBot.bot_lt_coe (i + 1))).2 fun k hk => ?_
    refine lt_of_le_of_lt Polynomial.degree_le_natDegree ?_
    exact WithBot.coe_lt_coe.2 (lt_of_le_of_lt ((Polynomial.natDegree_C_mul_le (f.cf k) (P k)).trans (p1 k)) (mem_range.1 hk))
  obtain ⟨a, ha⟩ := exists_series legFam_lead.1 legFam_lead.2.1 legFam_lead.2.2 (i + 1) q hqd
  have hpoly : q = ∑ k ∈ range (i + 1), .C (a k) * L k := Polynomial.funext fun t => by
    rw [ha, Polynomial.eval_finsetSum]
    exact sum_congr rfl fun k _ => by rw [Polynomial.eval_mul, Polynomial.eval_C, l3]
  have top : ∀ (b : Nat → ℝ) (R : Nat → Polynomial ℝ), (∀ k, (R k).natDegree ≤ k) → (∑ k ∈ range (i + 1), Polynomial.C (b k) * R k).coeff i = b i * (R i).coeff i := by
    intro b R hR
    rw [Polynomial.finsetSum_coeff, sum_range_succ, sum_eq_zero fun k hk => ?_, zero_add, Polynomial.coeff_C_mul]
    rw [Polynomial.coeff_C_mul, Polynomial.coeff_eq_zero_of_natDegree_lt (lt_of_le_of_lt (hR k) (mem_range.1 hk)), mul_zero]
  have hai : (chebFam π).leadc i = a i * legFam.leadc i := by
    have e1 := top f.cf P p1
    rw [← hq, hc, one_mul, p2] at e1
    rw [← e1, hpoly, top a L l1, l2]
  let g : Ope ℝ := ⟨legFam, i + 1, f.lb, f.ub, f.map, i + 1, (List.range (i + 1)).map a, false⟩
  have gwf : g.WF := ⟨by simp [g], le_rfl, by simp [g], fun c => by simp [g, legFam] at c⟩
  have gcf : ∀ k < i + 1, g.coeff.getD k 0 = a k := fun k hk => by
    simp only [g]; rw [List.getD_eq_getElem?_getD, List.getElem?_map, List.getElem?_range hk]; rfl
  have gval : ∀ x, g.val x = f.val x := fun x => by
    rw [val_cf hn, hfam, Ope.val]
    refine (sum_congr rfl fun k hk => by rw [gcf k (mem_range.1 hk)]).trans ((ha _).symm.trans ?_)
    rw [hq, Polynomial.eval_finsetSum]
    exact sum_congr rfl fun k _ => by rw [Polynomial.eval_mul, Polynomial.eval_C, p3]
  have e1 := innerW_leg gwf gwf rfl rfl (show OnInt g from ⟨h.lt, h.lo, h.hi, h.inv⟩) rfl
  rw [innerW_ok gwf gwf rfl] at e1
  have e1 := Except.ok.inj e1
  simp only [gval] at e1
  change ∑ k ∈ range (min (i + 1) (i + 1)), g.coeff.getD k 0 * g.coeff.getD k 0 * legFam.norm k = (∫ x in f.lb..f.ub, f.val x * f.val x) / (f.ub - f.lb) at e1
  have hpos : 0 < f.ub - f.lb := sub_pos.2 h.lt
  rw [eq_div_iff hpos.ne'] at e1
  rw [← e1, min_self]
  obtain ⟨b1, b2, b3⟩ := lead_le i
  have hap : 1 / 3 ≤ a i * a i := by
    have : a i = (chebFam π).leadc i / legFam.leadc i := by rw [hai, mul_div_assoc, div_self b1.ne', mul_one]
    have h3 : √3 * √3 = (3 : ℝ) := Real.mul_self_sqrt (by norm_num)
    rw [this, div_mul_div_comm, div_le_div_iff₀ (by norm_num) (mul_pos b1 b1), one_mul]
    calc legFam.leadc i * legFam.leadc i ≤ (√3 * (chebFam π).leadc i) * (√3 * (chebFam π).leadc i) := mul_self_le_mul_self b1.le b2
      _ = (chebFam π).leadc i * (chebFam π).leadc i * 3 := by linear_combination ((chebFam π).leadc i * (chebFam π).leadc i) * h3
  have hsum : a i * a i ≤ ∑ k ∈ range (i + 1), g.coeff.getD k 0 * g.coeff.getD k 0 * legFam.norm k := by
    have hterm : ∀ k ∈ range (i + 1), g.coeff.getD k 0 * g.coeff.getD k 0 * legFam.norm k = a k * a k := fun k hk => by
      rw [gcf k (mem_range.1 hk), show legFam.norm k = 1 from rfl, mul_one]
    rw [sum_congr rfl hterm]
    exact single_le_sum (f := fun k => a k * a k) (fun k _ => mul_self_nonneg _) (by simp)
  nlinarith

/-! ### The orthogonalization -/

/-- The expansions occurring: all on the same domain. -/
structure Cb (o : Opts ℝ) (m : SMap ℝ) (f : Ope ℝ) : Prop where
  wf : f.WF
  fam : f.fam = chebFam π
  lb : f.lb = o.lb
  ub : f.ub = o.ub
  map : f.map = m
  krist : f.krist = false

/-- Inner product on the domain. -/
noncomputable def ipo (o : Opts ℝ) (f g : Ope ℝ) : ℝ := ∫ x in o.lb..o.ub, f.val x * g.val x

theorem val_cont (f : Ope ℝ) : Continuous f.val := by
  have : f.val = fun x => ∑ k ∈ range f.num, f.coeff.getD k 0 * f.fam.p k (f.map.slope * x + f.map.off) := rfl
  rw [this]
  exact continuous_finsetSum _ fun k _ => ((p_continuous f.fam k).comp (by fun_prop : Continuous fun x => f.map.slope * x + f.map.off)).const_mul _

theorem ipo_comm (o : Opts ℝ) (f g : Ope ℝ) : ipo o f g = ipo o g f := by
  rw [ipo, ipo]; exact intervalIntegral.integral_congr fun x _ => mul_comm _ _

theorem ipo_scale {o : Opts ℝ} {f g h : Ope ℝ} {r : ℝ} (e : ∀ x, g.val x = r * h.val x) : ipo o f g = r * ipo o f h := by
  rw [ipo, ipo, ← intervalIntegral.integral_const_mul]
  exact intervalIntegral.integral_congr fun x _ => by show f.val x * g.val x = _; rw [e]; ring

theorem ipo_add {o : Opts ℝ} {f g h k : Ope ℝ} {r : ℝ} (e : ∀ x, g.val x = r * h.val x + k.val x) : ipo o f g = r * ipo o f h + ipo o f k := by
  have c1 : Continuous fun x => r * (f.val x * h.val x) := ((val_cont f).mul (val_cont h)).const_mul _
  have c2 : Continuous fun x => f.val x * k.val x := (val_cont f).mul (val_cont k)
  rw [ipo, ipo, ipo, ← intervalIntegral.integral_const_mul, ← intervalIntegral.integral_add (c1.intervalIntegrable _ _) (c2.intervalIntegrable _ _)]
  exact intervalIntegral.integral_congr fun x _ => by show f.val x * g.val x = _; rw [e]; ring

/-- The setting: a domain and its mapping, exact quadrature. -/
structure CbSet (o : Opts ℝ) (m : SMap ℝ) (Q : PT → Nat → Rule ℝ) (eps : ℝ) : Prop where
  lt : o.lb < o.ub
  lo : m.slope * o.lb + m.off = -1
  hi : m.slope * o.ub + m.off = 1
  inv : m.Inv
  rule : ∀ N, IsChebGauss N (Q .cheb N)
  eps : 0 < eps

theorem Cb.onInt {o : Opts ℝ} {m : SMap ℝ} {Q : PT → Nat → Rule ℝ} {eps : ℝ} (S : CbSet o m Q eps) {f : Ope ℝ} (h : Cb o m f) : OnInt f :=
  ⟨by rw [h.lb, h.ub]; exact S.lt, by rw [h.map, h.lb]; exact S.lo, by rw [h.map, h.ub]; exact S.hi, by rw [h.map, mul_comm]; exact S.inv.mul⟩

theorem Cb.inner {o : Opts ℝ} {m : SMap ℝ} {Q : PT → Nat → Rule ℝ} {eps : ℝ} (S : CbSet o m Q eps) (sq : ℝ → ℝ) (lt ht : List ℝ) {f g : Ope ℝ} (hf : Cb o m f) (hg : Cb o m g) :
    chebInner 0 eps sq Q lt ht f g = .ok (ipo o f g) := by
  have hb : ¬ ByTab f g := fun c => c.1 (by rw [hf.fam]; rfl)
  obtain ⟨r, e, v, rwf, r1, r2, r3, r4, r5⟩ := prod_exact (eps := eps) (sq := sq) (Q := Q) (legTab := lt) (hermTab := ht) (a := f) (b := g)
    ⟨hf.wf, hg.wf, hg.fam.trans hf.fam.symm, hg.map.trans hf.map.symm, by rw [hf.lb, hg.lb, sub_self, abs_zero]; exact S.eps,
      by rw [hf.ub, hg.ub, sub_self, abs_zero]; exact S.eps, hf.krist, hg.krist, by rw [hf.map]; exact S.inv,
      fun _ => ⟨by rw [hf.fam]; show (1 : ℝ) - -1 ≠ 0; norm_num, by rw [hf.ub, hf.lb]; exact (sub_pos.2 S.lt).ne'⟩,
      by rw [hf.fam]; exact ⟨(chebFam_lead π).1, (chebFam_lead π).2.1, (chebFam_lead π).2.2⟩⟩
    ⟨fun c => absurd c hb, fun c => absurd c hb, fun c => absurd c hb, fun _ => by rw [hf.fam]; exact projects_cheb (S.rule _)⟩
  have hr : Cb o m r := ⟨rwf, r1.trans hf.fam, r3.trans hf.lb, r4.trans hf.ub, r2.trans hf.map, r5⟩
  rw [chebInner, e, bind_ok, integrate_cheb rwf hr.fam (hr.onInt S), hr.lb, hr.ub, ipo]
  simp only [v]

theorem Cb.scale {o : Opts ℝ} {m : SMap ℝ} {f : Ope ℝ} (hf : Cb o m f) (a : ℝ) :
    ∃ g, scale 0 a f = .ok g ∧ Cb o m g ∧ g.num ≤ f.num ∧ (∀ k, g.cf k = a * f.cf k) ∧ ∀ x, g.val x = a * f.val x := by
  obtain ⟨d, e, l, v⟩ := mulAll_ok a (hf.wf.num_le.trans hf.wf.alloc_le)
  obtain ⟨r, er, hr, -⟩ := round_ok (thr := 0) (f := { f with coeff := d }) hf.wf.pos (by
    show f.num ≤ d.length; rw [l]; exact hf.wf.num_le.trans hf.wf.alloc_le)
  obtain ⟨r', er', -, -, -, -, -, -, c1, c2⟩ := scale_value (thr := 0) (a := a) (M := ∑ k ∈ range f.num, |a * f.cf k|) hf.wf le_rfl
    (fun k hk => single_le_sum (f := fun k => |a * f.cf k|) (fun _ _ => abs_nonneg _) (mem_range.2 hk))
  have es : C3.Poly.scale 0 a f = .ok r := by rw [C3.Poly.scale, e, bind_ok, er]
  rw [es] at er'
  have := Except.ok.inj er'
  subst this
  refine ⟨r, es, ⟨hr.wf ⟨hf.wf.pos, hf.wf.num_le, by show f.nalloc ≤ d.length; rw [l]; exact hf.wf.alloc_le, hf.wf.cheb⟩, hr.fam.trans hf.fam, hr.lb.trans hf.lb, hr.ub.trans hf.ub,
    hr.map.trans hf.map, hr.krist.trans hf.krist⟩, hr.le, fun k => ?_, fun x => ?_⟩
  · have := c1 k
    rw [zero_mul] at this
    exact sub_eq_zero.1 (abs_eq_zero.1 (le_antisymm this (abs_nonneg _)))
  · have := c2 x
    rw [zero_mul, zero_mul] at this
    exact sub_eq_zero.1 (abs_eq_zero.1 (le_antisymm this (abs_nonneg _)))

theorem Cb.axpy {o : Opts ℝ} {m : SMap ℝ} {eps : ℝ} (he : 0 < eps) {f g : Ope ℝ} (hf : Cb o m f) (hg : Cb o m g) (a : ℝ) :
    ∃ z, axpy 0 eps a f g = .ok z ∧ Cb o m z ∧ z.num ≤ max f.num g.num ∧ (∀ k, z.cf k = a * f.cf k + g.cf k) ∧ ∀ x, z.val x = a * f.val x + g.val x := by
  obtain ⟨z, e, z1, z2, z3, z4, z5, z6, z7, z8, z9⟩ := axpy_value (thr := 0) (eps := eps) (a := a) hf.wf hg.wf le_rfl (hf.fam.trans hg.fam.symm) (hf.map.trans hg.map.symm)
    (by rw [hf.lb, hg.lb, sub_self, abs_zero]; exact he) (by rw [hf.ub, hg.ub, sub_self, abs_zero]; exact he)
  refine ⟨z, e, ⟨z1, z2.trans hg.fam, z4.trans hg.lb, z5.trans hg.ub, z3.trans hg.map, z6.trans hg.krist⟩, z7, fun k => ?_, fun x => ?_⟩
  · exact sub_eq_zero.1 (abs_eq_zero.1 (le_antisymm (z8 k) (abs_nonneg _)))
  · have := z9 x
    rw [zero_mul] at this
    exact sub_eq_zero.1 (abs_eq_zero.1 (le_antisymm this (abs_nonneg _)))

/-- One step: function number `ii` is normalized and its part is removed from all the following ones. -/
theorem gsStep_ok {o : Opts ℝ} {m : SMap ℝ} {Q : PT → Nat → Rule ℝ} {eps tiny : ℝ} (S : CbSet o m Q eps) (ht0 : 0 ≤ tiny) (lt ht : List ℝ) {n ii : Nat} (hii : ii < n) {F : Nat → Ope ℝ}
    (hF : ∀ j < n, Cb o m (F j)) {fs : List (Ope ℝ)} (hl : fs.length = n) (hfs : ∀ j < n, fs[j]? = some (F j)) (hpos : tiny < √(ipo o (F ii) (F ii))) :
    ∃ (fs' : List (Ope ℝ)) (G : Nat → Ope ℝ) (r : ℝ), gsStep 0 eps tiny Real.sqrt (chebInner 0 eps Real.sqrt Q lt ht) n ii fs = .ok fs' ∧ fs'.length = n ∧
      (∀ j < n, fs'[j]? = some (G j)) ∧ (∀ j < n, Cb o m (G j)) ∧ (∀ j < ii, G j = F j) ∧ 0 < r ∧ r * r * ipo o (F ii) (F ii) = 1 ∧
      (G ii).num ≤ (F ii).num ∧ (∀ k, (G ii).cf k = r * (F ii).cf k) ∧ (∀ x, (G ii).val x = r * (F ii).val x) ∧
      ∀ j, ii < j → j < n → (G j).num ≤ max (G ii).num (F j).num ∧ (∀ k, (G j).cf k = -ipo o (G ii) (F j) * (G ii).cf k + (F j).cf k) ∧
        ∀ x, (G j).val x = -ipo o (G ii) (F j) * (G ii).val x + (F j).val x := by
  set W := ipo o (F ii) (F ii) with hW
  have hq : 0 < √W := lt_of_le_of_lt ht0 hpos
  have hW0 : 0 < W := Real.sqrt_pos.1 hq
  obtain ⟨f, f1, f2, f3, f4, f5⟩ := (hF ii hii).scale (1 / √W)
  have hG : ∀ j, ∃ z, ii < j → j < n → axpy 0 eps (-ipo o f (F j)) f (F j) = .ok z ∧ Cb o m z ∧ z.num ≤ max f.num (F j).num ∧
      (∀ k, z.cf k = -ipo o f (F j) * f.cf k + (F j).cf k) ∧ ∀ x, z.val x = -ipo o f (F j) * f.val x + (F j).val x := by
    intro j
    by_cases h : ii < j ∧ j < n
    · obtain ⟨z, h1⟩ := f2.axpy S.eps (hF j h.2) (-ipo o f (F j))
      exact ⟨z, fun _ _ => h1⟩
    · exact ⟨f, fun h1 h2 => absurd ⟨h1, h2⟩ h⟩
  choose P hP using hG
  obtain ⟨fs', h1, h2, h3, h4⟩ := forR_spec (a := ii + 1) (b := n) (body := fun jj fs => do
      let fi ← rd fs ii
      let fj ← rd fs jj
      let proj ← chebInner 0 eps Real.sqrt Q lt ht fi fj
      let h ← axpy 0 eps (-proj) fi fj
      wr fs jj h)
    (I := fun jj fs' => fs'.length = n ∧ (∀ k, ii < k → k < jj → fs'[k]? = some (P k)) ∧ ∀ k, k ≤ ii ∨ jj ≤ k → fs'[k]? = (fs.set ii f)[k]?)
    (s := fs.set ii f) (by omega) ⟨by simpa using hl, by omega, fun _ _ => rfl⟩
    (by
      rintro k hk1 hk2 b ⟨i1, i2, i3⟩
      have e : b[k]? = some (F k) := by
        rw [i3 k (Or.inr le_rfl), List.getElem?_set_ne (by omega), hfs k hk2]
      have e0 : b[ii]? = some f := by
        rw [i3 ii (Or.inl le_rfl), List.getElem?_set_self (by omega)]
      refine ⟨b.set k (P k), ?_, by simpa using i1, fun j hj1 hj2 => ?_, fun j hj => ?_⟩
      · rw [rd_of_getElem? e0, bind_ok, rd_of_getElem? e, bind_ok, f2.inner S Real.sqrt lt ht (hF k hk2), bind_ok, (hP k (by omega) hk2).1, bind_ok, wr_ok _ (by omega)]
      · by_cases c : j = k
        · rw [c, List.getElem?_set_self (by omega)]
        · rw [List.getElem?_set_ne (by omega)]
          exact i2 j hj1 (by omega)
      · rw [List.getElem?_set_ne (by omega)]
        exact i3 j (by omega))
  refine ⟨fs', fun j => if j < ii then F j else if j = ii then f else P j, 1 / √W, ?_, h2, ?_, ?_, ?_, by positivity, ?_, ?_, ?_, ?_, ?_⟩
  · unfold gsStep gsSweep
    rw [rd_of_getElem? (hfs ii hii), bind_ok, (hF ii hii).inner S Real.sqrt lt ht (hF ii hii), bind_ok, if_pos hpos, dv_ok hq.ne', bind_ok, f1, bind_ok,
      wr_ok _ (by omega), bind_ok]
    exact h1
  · intro j hj
    dsimp only
    by_cases c1 : j < ii
    · rw [if_pos c1, h4 j (Or.inl c1.le), List.getElem?_set_ne (by omega), hfs j hj]
    · rw [if_neg c1]
      by_cases c2 : j = ii
      · rw [if_pos c2, c2, h4 ii (Or.inl le_rfl), List.getElem?_set_self (by omega)]
      · rw [if_neg c2, h3 j (by omega) (by omega)]
  · intro j hj
    dsimp only
    by_cases c1 : j < ii
    · rw [if_pos c1]; exact hF j hj
    · rw [if_neg c1]
      by_cases c2 : j = ii
      · rw [if_pos c2]; exact f2
      · rw [if_neg c2]; exact (hP j (by omega) hj).2.1
  · intro j hj
    exact if_pos hj
  · rw [div_mul_div_comm, one_mul, Real.mul_self_sqrt hW0.le, one_div_mul_cancel hW0.ne']
  · simpa using f3
  · simpa using f4
  · simpa using f5
  · intro j hj1 hj2
    have e1 : ¬ j < ii := by omega
    have e2 : j ≠ ii := by omega
    simp only [e1, e2, if_false, lt_irrefl, if_true]
    exact ⟨(hP j hj1 hj2).2.2.1, (hP j hj1 hj2).2.2.2.1, (hP j hj1 hj2).2.2.2.2⟩

/-- C124: the Chebyshev basis. Without rounding (threshold 0), with exact quadrature and a domain that is not tiny, Gram-Schmidt orthogonalization gives functions
that are orthonormal on the domain; function `i` is a combination of the first `i+1` Chebyshev polynomials, with a positive last coefficient. -/
theorem orthBasis_cheb_partial {o : Opts ℝ} (hv : o.Valid) (hf : o.fam = chebFam π) (hk : o.krist = false) {Q : PT → Nat → Rule ℝ} (hQ : ∀ N, IsChebGauss N (Q .cheb N))
    {eps tiny : ℝ} (he : 0 < eps) (ht0 : 0 ≤ tiny) (ht : 3 * tiny ^ 2 < o.ub - o.lb) (legTab hermTab : List ℝ) (n : Nat) :
    ∃ (fs : List (Ope ℝ)) (G : Nat → Ope ℝ), orthBasis 0 eps tiny Real.sqrt Q legTab hermTab n o = .ok fs ∧ fs.length = n ∧ (∀ j < n, fs[j]? = some (G j)) ∧
      (∀ j < n, (G j).WF ∧ (G j).fam = o.fam ∧ (G j).lb = o.lb ∧ (G j).ub = o.ub ∧ (G j).num ≤ j + 1 ∧ 0 < (G j).cf j) ∧
      ∀ i < n, ∀ j < n, ∫ x in o.lb..o.ub, (G i).val x * (G j).val x = if i = j then 1 else 0 := by
  obtain ⟨m, hm, -, ho, e⟩ := initOpts_all hv
  have hpt : o.fam.pt = .cheb := by rw [hf]; rfl
  obtain ⟨hlo, hhi, -, hlu⟩ := ho (by rw [hpt]; simp)
  have S : CbSet o m Q eps := ⟨hlu, by rw [hlo, hf]; rfl, by rw [hhi, hf]; rfl, hm, hQ, he⟩
  have mk : makeAll (unitOrder o) n = .ok ((List.range n).map fun i => single o m i 1) := makeAll_ok fun i _ => by
    rw [unitOrder, e, bind_ok, wr_ok _ (by simp; omega), bind_ok]; rfl
  have start : ∀ j, Cb o m (single o m j 1) ∧ (single o m j 1).cf j = 1 := fun j => ⟨⟨single_wf hv m j 1, hf, rfl, rfl, rfl, hk⟩, by
    show (if j < j + 1 then ((List.replicate (j + 1 + 50) (0 : ℝ)).set j 1).getD j 0 else 0) = 1
    rw [if_pos (by omega), single_getD, if_pos rfl]⟩
  obtain ⟨fs, h1, h2, G, g1, g2, g3, -, g5⟩ := forN_spec (n := n) (body := gsStep 0 eps tiny Real.sqrt (chebInner 0 eps Real.sqrt Q legTab hermTab) n)
    (I := fun ii fs => fs.length = n ∧ ∃ F : Nat → Ope ℝ, (∀ j < n, fs[j]? = some (F j)) ∧ (∀ j < n, Cb o m (F j) ∧ (F j).num ≤ j + 1) ∧
      (∀ i < ii, ∀ j < n, ipo o (F i) (F j) = if i = j then 1 else 0) ∧
      (∀ j, ii ≤ j → j < n → (F j).cf j = 1) ∧ ∀ i < ii, 0 < (F i).cf i) (s := (List.range n).map fun i => single o m i 1)
    ⟨by simp, fun i => single o m i 1, fun j hj => by rw [List.getElem?_map, List.getElem?_range hj]; rfl, fun j _ => ⟨(start j).1, le_rfl⟩, by omega,
      fun j _ _ => (start j).2, by omega⟩
    (by
      rintro ii hii fs ⟨i1, F, i2, i3, i4, i5, i6⟩
      have a1 := i5 ii le_rfl hii
      have hbig : tiny < √(ipo o (F ii) (F ii)) := by
        have hge := cheb_norm_ge (i3 ii hii).1.fam ((i3 ii hii).1.onInt S) (i3 ii hii).2 a1
        rw [(i3 ii hii).1.lb, (i3 ii hii).1.ub] at hge
        refine Real.lt_sqrt_of_sq_lt ?_
        rw [ipo]; linarith
      obtain ⟨fs', G, r, r1, r2, r3, r4, r5, r6, r7, r8, r9, r10, r11⟩ := gsStep_ok S ht0 legTab hermTab hii (fun j hj => (i3 j hj).1) i1 i2 hbig
      have hGG : ipo o (G ii) (G ii) = 1 := by
        rw [ipo_scale r10, ipo_comm, ipo_scale r10, ← mul_assoc, r7]
      have zero : ∀ {f : Ope ℝ} {j k : Nat}, f.num ≤ j + 1 → j < k → f.cf k = 0 := fun {f j k} h h' => if_neg (by omega)
      refine ⟨fs', r1, r2, G, r3, fun j hj => ⟨r4 j hj, ?_⟩, ?_, ?_, ?_⟩
      · rcases lt_trichotomy j ii with d | d | d
        · rw [r5 j d]; exact (i3 j hj).2
        · rw [d]; exact r8.trans (i3 ii hii).2
        · have h5 := (r11 j d hj).1
          have h6 := (i3 j hj).2
          have h7 := r8.trans (i3 ii hii).2
          exact h5.trans (max_le (by omega) h6)
      · intro i hi j hj
        rcases Nat.lt_succ_iff_lt_or_eq.1 hi with c | c
        · rw [r5 i c]
          rcases lt_trichotomy j ii with d | d | d
          · rw [r5 j d]; exact i4 i c j hj
          · rw [d, ipo_scale r10, i4 i c ii hii, if_neg (by omega), mul_zero]
          · rw [ipo_add (r11 j d hj).2.2, i4 i c j hj, ipo_scale r10, i4 i c ii hii, if_neg (by omega), if_neg (by omega)]
            ring
        · subst c
          rcases lt_trichotomy j i with d | d | d
          · rw [r5 j d, ipo_comm, ipo_scale r10, i4 j d i hii, if_neg (by omega), if_neg (by omega), mul_zero]
          · rw [d, hGG, if_pos rfl]
          · rw [ipo_add (r11 j d hj).2.2, hGG, if_neg (by omega)]
            ring
      · intro j hj1 hj2
        rw [(r11 j (by omega) hj2).2.1 j, i5 j (by omega) hj2, zero (r8.trans (i3 ii hii).2) (by omega)]
        ring
      · intro i hi
        rcases Nat.lt_succ_iff_lt_or_eq.1 hi with c | c
        · rw [r5 i c]; exact i6 i c
        · subst c
          rw [r9 i, a1, mul_one]; exact r6)
  refine ⟨fs, G, ?_, h2, g1, fun j hj => ⟨(g2 j hj).1.wf, (g2 j hj).1.fam.trans hf.symm, (g2 j hj).1.lb, (g2 j hj).1.ub, (g2 j hj).2, g5 j hj⟩, g3⟩
  rw [orthBasis, if_pos hpt, mk, bind_ok, h1]

/-- Chebyshev options on [1,4]. -/
noncomputable def exOpts (fam : Fam ℝ) : Opts ℝ := ⟨fam, 5, 100, 2, 1, 1, 4, 0, 1, false, false, false⟩

/-- The hypotheses can be met. -/
example : ∃ (Q : PT → Nat → Rule ℝ) (fs : List (Ope ℝ)), orthBasis 0 1 (1 / 2) Real.sqrt Q [] [] 7 (exOpts (chebFam π)) = .ok fs ∧ fs.length = 7 := by
  choose R hR using exists_isChebGauss
  have hv : (exOpts (chebFam π)).Valid := ⟨fun h => by simp [exOpts, chebFam] at h, fun _ => ⟨by norm_num [exOpts, chebFam], by norm_num [exOpts]⟩, fun _ => ⟨π, rfl⟩⟩
  obtain ⟨fs, G, e, l, -⟩ := orthBasis_cheb_partial hv rfl rfl (Q := fun _ => R) hR (eps := 1) (tiny := 1 / 2) one_pos (by norm_num) (by norm_num [exOpts]) [] [] 7
  exact ⟨_, fs, e, l⟩

/-- The hypotheses of the Legendre and Hermite cases can be met. -/
example (Q : PT → Nat → Rule ℝ) : (∃ fs, orthBasis 0 1 0 Real.sqrt Q [] [] 7 (exOpts legFam) = .ok fs) ∧ ∃ fs, orthBasis 0 1 0 Real.sqrt Q [] [] 7 (exOpts (hermFam 100)) = .ok fs := by
  have hv : (exOpts legFam).Valid := ⟨fun h => by simp [exOpts, legFam] at h, fun _ => ⟨by norm_num [exOpts, legFam], by norm_num [exOpts]⟩, fun h => by simp [exOpts, legFam] at h⟩
  have hv2 : (exOpts (hermFam 100)).Valid := ⟨fun _ => by simp [exOpts], fun h => absurd rfl h, fun h => by simp [exOpts, hermFam] at h⟩
  obtain ⟨fs, e, -⟩ := orthBasis_leg hv rfl 0 1 0 Q [] [] 7
  obtain ⟨gs, e2, -⟩ := orthBasis_herm_partial (big := 100) hv2 rfl rfl 0 1 0 Q [] [] 7
  exact ⟨⟨fs, e⟩, gs, e2⟩

/-- Linear and quadratic functions on [1,4]. -/
example : ∃ (Q : PT → Nat → Rule ℝ) (r s : Ope ℝ), linear 2 3 (exOpts legFam) = .ok r ∧ eval Real.sqrt r 2 = .ok 7 ∧ quadratic Q 2 3 (exOpts (chebFam π)) = .ok s ∧
    eval Real.sqrt s 1 = .ok 8 := by
  choose R hR using exists_isChebGauss
  have hv : (exOpts legFam).Valid := ⟨fun h => by simp [exOpts, legFam] at h, fun _ => ⟨by norm_num [exOpts, legFam], by norm_num [exOpts]⟩, fun h => by simp [exOpts, legFam] at h⟩
  have hv2 : (exOpts (chebFam π)).Valid := ⟨fun h => by simp [exOpts, chebFam] at h, fun _ => ⟨by norm_num [exOpts, chebFam], by norm_num [exOpts]⟩, fun _ => ⟨π, rfl⟩⟩
  obtain ⟨r, e, -, v⟩ := linear_value hv rfl legFam_lead.1 rfl legFam_lead.2.1 2 3 Real.sqrt
  obtain ⟨s, e2, -, v2⟩ := quadratic_value hv2 rfl (Q := fun _ => R) (projects_cheb (hR 3)) 2 3 Real.sqrt
  refine ⟨_, r, s, e, by rw [v]; norm_num, e2, by rw [v2]; norm_num⟩

end C3.Poly

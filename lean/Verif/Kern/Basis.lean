/-
C97: the orthonormal basis made from Gaussian kernels.
-/
import Verif.Kern.AlgProps
import Verif.Lin.Lemmas
import Mathlib.Analysis.SpecialFunctions.ExpDeriv
import Mathlib.Analysis.Analytic.Uniqueness
import Mathlib.LinearAlgebra.LinearIndependent.Basic

namespace C3.Kern

open Finset
open C3.Lin (dv dv_ok)

/-! ### Gaussians with different centres are linearly independent on every interval -/

/-- The character `x ↦ exp (r x)`. -/
noncomputable def chi (r : ℝ) : Multiplicative ℝ →* ℝ where
  toFun x := Real.exp (r * x.toAdd)
  map_one' := by simp
  map_mul' x y := by simp [mul_add, Real.exp_add]

theorem chi_injective : Function.Injective chi := by
  intro a b h
  have : chi a (Multiplicative.ofAdd 1) = chi b (Multiplicative.ofAdd 1) := by rw [h]
  simpa [chi] using this

theorem exp_indep {n : Nat} {b r : Nat → ℝ} (hr : ∀ i < n, ∀ j < n, r i = r j → i = j) (h : ∀ x : ℝ, ∑ i ∈ range n, b i * Real.exp (r i * x) = 0) :
    ∀ i < n, b i = 0 := by
  have h1 := (linearIndependent_monoidHom (Multiplicative ℝ) ℝ).comp (fun i : Fin n => chi (r i)) (by
    intro i j e
    exact Fin.ext (hr i i.2 j j.2 (chi_injective e)))
  rw [Fintype.linearIndependent_iff] at h1
  intro i hi
  refine h1 (fun i => b i) ?_ ⟨i, hi⟩
  funext x
  have := h x.toAdd
  rw [← Fin.sum_univ_eq_sum_range (fun i => b i * Real.exp (r i * x.toAdd)) n] at this
  simpa [chi] using this

theorem gsum_analytic (n : Nat) (a s w c : Nat → ℝ) (hw : ∀ i < n, w i ≠ 0) : AnalyticOnNhd ℝ (gsum n a s w c) Set.univ := by
  intro x _
  have : AnalyticAt ℝ (fun x => ∑ i ∈ range n, a i * gk (s i) (w i) (c i) x) x := by
    refine Finset.analyticAt_fun_sum _ fun i hi => ?_
    simp only [gk]
    refine analyticAt_const.mul (analyticAt_const.mul (AnalyticAt.rexp' ?_))
    exact ((analyticAt_id.sub analyticAt_const).pow 2).neg.div analyticAt_const (hw i (mem_range.1 hi))
  exact this

/-- C97: a sum of Gaussians of equal width with different centres that vanishes on an interval has zero coefficients. -/
theorem gsum_indep {n : Nat} {a s w c : Nat → ℝ} {s0 w0 : ℝ} (hs0 : s0 ≠ 0) (hw0 : 0 < w0) (hs : ∀ i < n, s i = s0) (hw : ∀ i < n, w i = w0)
    (hc : ∀ i < n, ∀ j < n, c i = c j → i = j) {lb ub : ℝ} (hlt : lb < ub) (h : ∀ x ∈ Set.Icc lb ub, gsum n a s w c x = 0) :
    ∀ i < n, a i = 0 := by
  have h1 : Set.EqOn (gsum n a s w c) 0 Set.univ := by
    refine (gsum_analytic n a s w c (fun i hi => by rw [hw i hi]; exact hw0.ne')).eqOn_zero_of_preconnected_of_eventuallyEq_zero isPreconnected_univ
      (z₀ := (lb + ub) / 2) (Set.mem_univ _) ?_
    have : Set.Icc lb ub ∈ nhds ((lb + ub) / 2) := Icc_mem_nhds (by linarith) (by linarith)
    filter_upwards [this] with x hx
    exact h x hx
  have h2 := exp_indep (n := n) (b := fun i => a i * (s0 * Real.exp (-c i ^ 2 / w0))) (r := fun i => 2 * c i / w0)
    (by
      intro i hi j hj e
      refine hc i hi j hj ?_
      field_simp at e
      linarith)
    (by
      intro x
      have := h1 (Set.mem_univ x)
      have e : gsum n a s w c x = Real.exp (-x ^ 2 / w0) * ∑ i ∈ range n, a i * (s0 * Real.exp (-c i ^ 2 / w0)) * Real.exp (2 * c i / w0 * x) := by
        rw [gsum, mul_sum]
        refine sum_congr rfl fun i hi => ?_
        have hi := mem_range.1 hi
        rw [hs i hi, hw i hi, gk, show -(x - c i) ^ 2 / w0 = -x ^ 2 / w0 + -c i ^ 2 / w0 + 2 * c i / w0 * x by field_simp; ring, Real.exp_add, Real.exp_add]
        ring
      rw [e] at this
      exact (mul_eq_zero.1 this).resolve_left (Real.exp_ne_zero _))
  intro i hi
  exact (mul_eq_zero.1 (h2 i hi)).resolve_right (mul_ne_zero hs0 (Real.exp_ne_zero _))

/-! ### The process -/

/-- Specification: the inner product of two functions on an interval. -/
noncomputable def ip (lb ub : ℝ) (f g : ℝ → ℝ) : ℝ := ∫ x in lb..ub, f x * g x

theorem ip_comm (lb ub : ℝ) (f g : ℝ → ℝ) : ip lb ub f g = ip lb ub g f := by
  unfold ip
  simp only [mul_comm]

/-- An expansion in the kernels described by the options. -/
structure Nrm (o : Opts) (s wd : ℝ) (ke : KE) : Prop where
  good : Good ke
  nk : ke.nk = o.nnodes
  lb : ke.lb = o.lb
  ub : ke.ub = o.ub
  ks : ∀ i < o.nnodes, ke.s i = s
  kw : ∀ i < o.nnodes, ke.w i = wd * wd
  kc : ∀ i < o.nnodes, ke.c i = o.centers.getD i 0

theorem Nrm.cont {ke : KE} : Continuous ke.fn := gsum_continuous _ _ _ _ _

theorem Nrm.inner {o : Opts} {s wd : ℝ} {f g : KE} (hf : Nrm o s wd f) (hg : Nrm o s wd g) : inner f g = .ok (ip o.lb o.ub f.fn g.fn) := by
  rw [inner_ok hf.good hg.good, hf.lb, hg.lb, hf.ub, hg.ub, max_self, min_self, ip]

theorem same_k {f g : KE} (h : g.kernels = f.kernels) (i : Nat) : g.s i = f.s i ∧ g.w i = f.w i ∧ g.c i = f.c i := by
  simp [KE.s, KE.w, KE.c, KE.kn, h]

theorem Nrm.same {o : Opts} {s wd : ℝ} {f g : KE} (hf : Nrm o s wd f) (hg : Good g) (hn : g.nk = f.nk) (hl : g.lb = f.lb) (hu : g.ub = f.ub)
    (hk : g.kernels = f.kernels) : Nrm o s wd g :=
  ⟨hg, hn.trans hf.nk, hl.trans hf.lb, hu.trans hf.ub, fun i hi => (same_k hk i).1.trans (hf.ks i hi),
    fun i hi => (same_k hk i).2.1.trans (hf.kw i hi), fun i hi => (same_k hk i).2.2.trans (hf.kc i hi)⟩

theorem Nrm.scale {o : Opts} {s wd : ℝ} {f : KE} (hf : Nrm o s wd f) (r : ℝ) : ∃ g, scale r f = .ok g ∧ Nrm o s wd g ∧
    (∀ i < o.nnodes, g.a i = f.a i * r) ∧ ∀ x, g.fn x = r * f.fn x := by
  obtain ⟨g, h1, h2, h3, h4, h5, -, h7, h8, h9⟩ := scale_ok r hf.good
  exact ⟨g, h1, hf.same h2 h3 h4 h5 h7, fun i hi => h8 i (by rw [hf.nk]; exact hi), h9⟩

theorem Nrm.axpy {o : Opts} {s wd tol : ℝ} (ht : 0 ≤ tol) {f g : KE} (hf : Nrm o s wd f) (hg : Nrm o s wd g) (p : ℝ) : ∃ z, axpy tol p f g = .ok z ∧
    Nrm o s wd z ∧ (∀ i < o.nnodes, z.a i = g.a i + p * f.a i) ∧ ∀ x, z.fn x = g.fn x + p * f.fn x := by
  obtain ⟨z, h1, h2, h3, h4, h5, -, h7, h8, h9⟩ := axpy_ok ht p hf.good hg.good (hf.nk.trans hg.nk.symm) (by
    intro i hi
    have hi : i < o.nnodes := hf.nk ▸ hi
    exact ⟨(hf.ks i hi).trans (hg.ks i hi).symm, (hf.kw i hi).trans (hg.kw i hi).symm, (hf.kc i hi).trans (hg.kc i hi).symm⟩)
  exact ⟨z, h1, hg.same h2 h3 h4 h5 h7, fun i hi => h8 i (by rw [hg.nk]; exact hi), h9⟩

/-- The projection, exactly (no tolerance). -/
theorem Nrm.project {o : Opts} {s wd tol : ℝ} (ht : 0 ≤ tol) {f g : KE} (hf : Nrm o s wd f) (hg : Nrm o s wd g) : ∃ z, project 0 tol f g = .ok z ∧
    Nrm o s wd z ∧ (∀ i < o.nnodes, z.a i = g.a i - ip o.lb o.ub f.fn g.fn * f.a i) ∧ ∀ x, z.fn x = g.fn x - ip o.lb o.ub f.fn g.fn * f.fn x := by
  unfold Kern.project
  rw [hf.inner hg, bind_ok]
  by_cases h : |ip o.lb o.ub f.fn g.fn| > 0
  · rw [if_pos h]
    obtain ⟨z, h1, h2, h3, h4⟩ := hf.axpy ht hg (-ip o.lb o.ub f.fn g.fn)
    exact ⟨z, h1, h2, fun i hi => by rw [h3 i hi]; ring, fun x => by rw [h4]; ring⟩
  · rw [if_neg h]
    have : ip o.lb o.ub f.fn g.fn = 0 := abs_eq_zero.1 (le_antisymm (not_lt.1 h) (abs_nonneg _))
    exact ⟨g, rfl, hg, fun i _ => by rw [this]; ring, fun x => by rw [this]; ring⟩

theorem ip_sub {lb ub p : ℝ} {h f g : ℝ → ℝ} (hh : Continuous h) (hf : Continuous f) (hg : Continuous g) :
    ip lb ub h (fun x => g x - p * f x) = ip lb ub h g - p * ip lb ub h f := by
  unfold ip
  have e : ∀ x, h x * (g x - p * f x) = h x * g x - p * (h x * f x) := fun x => by ring
  simp only [e]
  rw [intervalIntegral.integral_sub (Continuous.intervalIntegrable (by fun_prop) _ _) (Continuous.intervalIntegrable (by fun_prop) _ _),
    intervalIntegral.integral_const_mul]

theorem ip_scale (lb ub r : ℝ) (f g : ℝ → ℝ) : ip lb ub f (fun x => r * g x) = r * ip lb ub f g := by
  unfold ip
  have e : ∀ x, f x * (r * g x) = r * (f x * g x) := fun x => by ring
  simp only [e]
  rw [intervalIntegral.integral_const_mul]

/-- One step: function number `ii` is normalized and its part is removed from all the following ones. -/
theorem gsStep_ok {o : Opts} {s wd tol : ℝ} (ht : 0 ≤ tol) {n ii : Nat} (hii : ii < n) {F : Nat → KE} (hF : ∀ j < n, Nrm o s wd (F j)) {fs : List KE}
    (hl : fs.length = n) (hfs : ∀ j < n, fs[j]? = some (F j)) (hpos : 0 < ip o.lb o.ub (F ii).fn (F ii).fn) :
    ∃ (fs' : List KE) (G : Nat → KE) (r : ℝ), gsStep 0 tol n ii fs = .ok fs' ∧ fs'.length = n ∧ (∀ j < n, fs'[j]? = some (G j)) ∧
      (∀ j < n, Nrm o s wd (G j)) ∧ (∀ j < ii, G j = F j) ∧ 0 < r ∧ r * r * ip o.lb o.ub (F ii).fn (F ii).fn = 1 ∧
      (∀ i < o.nnodes, (G ii).a i = (F ii).a i * r) ∧ (∀ x, (G ii).fn x = r * (F ii).fn x) ∧
      ∀ j, ii < j → j < n → (∀ i < o.nnodes, (G j).a i = (F j).a i - ip o.lb o.ub (G ii).fn (F j).fn * (G ii).a i) ∧
        ∀ x, (G j).fn x = (F j).fn x - ip o.lb o.ub (G ii).fn (F j).fn * (G ii).fn x := by
  set S := ip o.lb o.ub (F ii).fn (F ii).fn with hS
  have hq : 0 < Real.sqrt S := Real.sqrt_pos.2 hpos
  obtain ⟨f, f1, f2, f3, f4⟩ := (hF ii hii).scale (1 / Real.sqrt S)
  have hG : ∀ j, ∃ z, ii < j → j < n → project 0 tol f (F j) = .ok z ∧ Nrm o s wd z ∧
      (∀ i < o.nnodes, z.a i = (F j).a i - ip o.lb o.ub f.fn (F j).fn * f.a i) ∧ ∀ x, z.fn x = (F j).fn x - ip o.lb o.ub f.fn (F j).fn * f.fn x := by
    intro j
    by_cases h : ii < j ∧ j < n
    · obtain ⟨z, h1⟩ := f2.project ht (hF j h.2)
      exact ⟨z, fun _ _ => h1⟩
    · exact ⟨f, fun h1 h2 => absurd ⟨h1, h2⟩ h⟩
  choose P hP using hG
  obtain ⟨fs', h1, h2, h3, h4⟩ := forR_spec (a := ii + 1) (b := max (ii + 1) n) (body := fun jj fs => do
      let g ← rd fs jj
      let g ← project 0 tol f g
      wr fs jj g)
    (I := fun jj fs' => fs'.length = n ∧ (∀ k, ii < k → k < jj → fs'[k]? = some (P k)) ∧ ∀ k, k ≤ ii ∨ jj ≤ k → fs'[k]? = (fs.set ii f)[k]?)
    (s := fs.set ii f) (le_max_left _ _) ⟨by simpa using hl, by omega, fun _ _ => rfl⟩
    (by
      rintro k hk1 hk2 b ⟨i1, i2, i3⟩
      have hkn : k < n := by omega
      have e : b[k]? = some (F k) := by
        rw [i3 k (Or.inr le_rfl), List.getElem?_set_ne (by omega), hfs k hkn]
      refine ⟨b.set k (P k), ?_, by simpa using i1, fun j hj1 hj2 => ?_, fun j hj => ?_⟩
      · rw [rd_of_getElem? e, bind_ok, (hP k (by omega) hkn).1, bind_ok, wr_ok _ (by omega)]
      · by_cases c : j = k
        · rw [c, List.getElem?_set_self (by omega)]
        · rw [List.getElem?_set_ne (by omega)]
          exact i2 j hj1 (by omega)
      · rw [List.getElem?_set_ne (by omega)]
        exact i3 j (by omega))
  have hm : max (ii + 1) n = n := by omega
  refine ⟨fs', fun j => if j < ii then F j else if j = ii then f else P j, 1 / Real.sqrt S, ?_, h2, ?_, ?_, ?_, by positivity, ?_, ?_, ?_, ?_⟩
  · unfold gsStep
    rw [rd_of_getElem? (hfs ii hii), bind_ok, (hF ii hii).inner (hF ii hii), bind_ok, if_neg (not_lt.2 hpos.le), dv_ok hq.ne', bind_ok, f1, bind_ok,
      wr_ok _ (by omega), bind_ok]
    exact h1
  · intro j hj
    dsimp only
    by_cases c1 : j < ii
    · rw [if_pos c1, h4 j (Or.inl c1.le), List.getElem?_set_ne (by omega), hfs j hj]
    · rw [if_neg c1]
      by_cases c2 : j = ii
      · rw [if_pos c2, c2, h4 ii (Or.inl le_rfl), List.getElem?_set_self (by omega)]
      · rw [if_neg c2, h3 j (by omega) (by omega)]
  · intro j hj
    dsimp only
    by_cases c1 : j < ii
    · rw [if_pos c1]; exact hF j hj
    · rw [if_neg c1]
      by_cases c2 : j = ii
      · rw [if_pos c2]; exact f2
      · rw [if_neg c2]; exact (hP j (by omega) hj).2.1
  · intro j hj
    exact if_pos hj
  · rw [div_mul_div_comm, one_mul, Real.mul_self_sqrt hpos.le, one_div_mul_cancel hpos.ne']
  · simpa using f3
  · simpa using f4
  · intro j hj1 hj2
    have e1 : ¬ j < ii := by omega
    have e2 : j ≠ ii := by omega
    simp only [e1, e2, if_false, lt_irrefl, if_true]
    exact ⟨(hP j hj1 hj2).2.2.1, (hP j hj1 hj2).2.2.2⟩

theorem basisStart_ok {o : Opts} {s wd : ℝ} (h : OGood o s wd) (big : ℝ) {n : Nat} (hn : n ≤ o.nnodes) : ∃ (fs : List KE) (F : Nat → KE),
    basisStart big n o = .ok fs ∧ fs.length = n ∧ (∀ j < n, fs[j]? = some (F j)) ∧ ∀ j < n, Nrm o s wd (F j) ∧
      ∀ k < o.nnodes, (F j).a k = if k = j then 1 else 0 := by
  obtain ⟨ke, h1, h2, h3, h4, h5, -, h7⟩ := init_ok h big
  have hl : o.nnodes ≤ ke.coeff.length := by have := h2.hc; have := h2.hn; omega
  refine ⟨(List.range n).map fun i => { ke with coeff := ke.coeff.set i 1 }, fun i => { ke with coeff := ke.coeff.set i 1 }, ?_, by simp, ?_, ?_⟩
  · unfold basisStart
    have : ∀ {l : List Nat}, (∀ i ∈ l, i < n) → (l.mapM fun ii => do
        let ke ← init big o
        let c ← wr ke.coeff ii 1
        pure ({ ke with coeff := c } : KE) : C (List KE)) = .ok (l.map fun i => { ke with coeff := ke.coeff.set i 1 }) := by
      intro l
      induction l with
      | nil => intro _; rfl
      | cons a l ih =>
        intro hl'
        have ha : a < n := hl' a (by simp)
        rw [h1] at ih
        rw [List.mapM_cons, h1, bind_ok, wr_ok _ (by omega), bind_ok, pure_eq_ok, bind_ok, ih (fun i hi => hl' i (by simp [hi])), bind_ok]; rfl
    exact this (fun i hi => List.mem_range.1 hi)
  · intro j hj
    simp [hj]
  · intro j hj
    refine ⟨⟨⟨h2.pos, by simpa using h2.hc, h2.hk, h2.hn, h2.each, h2.all⟩, h3, h4, h5, fun i hi => (h7 i hi).2.1, fun i hi => (h7 i hi).2.2.1,
      fun i hi => (h7 i hi).2.2.2⟩, ?_⟩
    intro k hk
    simp only [KE.a]
    by_cases c : k = j
    · subst c
      rw [if_pos rfl, List.getD_eq_getElem?_getD, List.getElem?_set_self (by omega)]; rfl
    · rw [if_neg c, List.getD_eq_getElem?_getD, List.getElem?_set_ne (by omega), ← List.getD_eq_getElem?_getD]
      exact (h7 k hk).1

/-- A nonzero coefficient gives a positive norm. -/
theorem Nrm.pos {o : Opts} {s wd : ℝ} (h : OGood o s wd) (hs : s ≠ 0) (hlt : o.lb < o.ub)
    (hc : ∀ i < o.nnodes, ∀ j < o.nnodes, o.centers.getD i 0 = o.centers.getD j 0 → i = j) {f : KE} (hf : Nrm o s wd f) {k : Nat} (hk : k < o.nnodes)
    (ha : f.a k ≠ 0) : 0 < ip o.lb o.ub f.fn f.fn := by
  have hw : 0 < wd * wd := mul_self_pos.2 h.wd0
  have : ∃ x ∈ Set.Icc o.lb o.ub, f.fn x ≠ 0 := by
    by_contra hne
    push Not at hne
    refine ha (gsum_indep (n := o.nnodes) (a := f.a) (s := f.s) (w := f.w) (c := f.c) hs hw hf.ks hf.kw ?_ hlt ?_ k hk)
    · intro i hi j hj e
      rw [hf.kc i hi, hf.kc j hj] at e
      exact hc i hi j hj e
    · intro x hx
      have := hne x hx
      rwa [KE.fn, hf.nk] at this
  obtain ⟨x, hx, hne⟩ := this
  unfold ip
  have hcont : Continuous f.fn := Nrm.cont
  exact intervalIntegral.integral_pos hlt (hcont.mul hcont).continuousOn (fun x _ => mul_self_nonneg _) ⟨x, hx, mul_self_pos.2 hne⟩

/-- C97: from different centres the process makes an orthonormal basis (in exact arithmetic and without the threshold `1e-14` for projections): function
number `j` is a combination of the first `j + 1` kernels, with a positive coefficient of the last one. -/
theorem orthBasis_partial {o : Opts} {s wd tol : ℝ} (h : OGood o s wd) (hs : s ≠ 0) (hlt : o.lb < o.ub)
    (hc : ∀ i < o.nnodes, ∀ j < o.nnodes, o.centers.getD i 0 = o.centers.getD j 0 → i = j) (ht : 0 ≤ tol) (big : ℝ) {n : Nat} (hn : n ≤ o.nnodes) :
    ∃ (fs : List KE) (G : Nat → KE), orthBasis big 0 tol n o = .ok fs ∧ fs.length = n ∧ (∀ j < n, fs[j]? = some (G j)) ∧
      (∀ i < n, ∀ j < n, ∫ x in o.lb..o.ub, (G i).fn x * (G j).fn x = if i = j then 1 else 0) ∧
      ∀ j < n, Good (G j) ∧ (G j).lb = o.lb ∧ (G j).ub = o.ub ∧ 0 < (G j).a j ∧
        ∀ x, (G j).fn x = ∑ k ∈ range (j + 1), (G j).a k * gk s (wd * wd) (o.centers.getD k 0) x := by
  obtain ⟨fs0, F0, s1, s2, s3, s4⟩ := basisStart_ok h big hn
  unfold orthBasis
  rw [cassert, if_pos (decide_eq_true hn), bind_ok, s1, bind_ok]
  obtain ⟨fs, h1, h2, G, g1, g2, g3, -, g5⟩ := forN_spec (n := n) (body := gsStep 0 tol n)
    (I := fun ii fs => fs.length = n ∧ ∃ F : Nat → KE, (∀ j < n, fs[j]? = some (F j)) ∧ (∀ j < n, Nrm o s wd (F j)) ∧
      (∀ i < ii, ∀ j < n, ip o.lb o.ub (F i).fn (F j).fn = if i = j then 1 else 0) ∧
      (∀ j, ii ≤ j → j < n → (F j).a j = 1 ∧ ∀ k < o.nnodes, ii ≤ k → k ≠ j → (F j).a k = 0) ∧
      ∀ i < ii, 0 < (F i).a i ∧ ∀ k < o.nnodes, i < k → (F i).a k = 0) (s := fs0)
    ⟨s2, F0, s3, fun j hj => (s4 j hj).1, by omega, fun j _ hj => ⟨by rw [(s4 j hj).2 j (by omega), if_pos rfl], fun k hk _ hne => by
      rw [(s4 j hj).2 k hk, if_neg hne]⟩, by omega⟩
    (by
      rintro ii hii fs ⟨i1, F, i2, i3, i4, i5, i6⟩
      obtain ⟨a1, a2⟩ := i5 ii le_rfl hii
      obtain ⟨fs', G, r, r1, r2, r3, r4, r5, r6, r7, r8, r9, r10⟩ := gsStep_ok ht hii i3 i1 i2
        ((i3 ii hii).pos h hs hlt hc (k := ii) (by omega) (by rw [a1]; exact one_ne_zero))
      have eG : (G ii).fn = fun x => r * (F ii).fn x := funext r9
      have hGG : ip o.lb o.ub (G ii).fn (G ii).fn = 1 := by
        rw [eG, ip_scale, ip_comm, ip_scale, ← mul_assoc, r7]
      refine ⟨fs', r1, r2, G, r3, r4, ?_, ?_, ?_⟩
      · intro i hi j hj
        rcases Nat.lt_succ_iff_lt_or_eq.1 hi with c | c
        · rw [r5 i c]
          rcases lt_trichotomy j ii with d | d | d
          · rw [r5 j d]; exact i4 i c j hj
          · rw [d, eG, ip_scale, i4 i c ii hii, if_neg (by omega), mul_zero]
          · have e2 : (G j).fn = fun x => (F j).fn x - ip o.lb o.ub (G ii).fn (F j).fn * (G ii).fn x := funext (r10 j d hj).2
            rw [e2, ip_sub Nrm.cont Nrm.cont Nrm.cont, i4 i c j hj, eG, ip_scale, i4 i c ii hii, if_neg (by omega), if_neg (by omega)]
            ring
        · subst c
          rcases lt_trichotomy j i with d | d | d
          · rw [r5 j d, eG, ip_comm, ip_scale, i4 j d i hii, if_neg (by omega), if_neg (by omega), mul_zero]
          · rw [d, hGG, if_pos rfl]
          · have e2 : (G j).fn = fun x => (F j).fn x - ip o.lb o.ub (G i).fn (F j).fn * (G i).fn x := funext (r10 j d hj).2
            rw [e2, ip_sub Nrm.cont Nrm.cont Nrm.cont, hGG, if_neg (by omega)]
            ring
      · intro j hj1 hj2
        obtain ⟨b1, b2⟩ := i5 j (by omega) hj2
        obtain ⟨e1, -⟩ := r10 j (by omega) hj2
        constructor
        · rw [e1 j (by omega), r8 j (by omega), b1, a2 j (by omega) (by omega) (by omega)]; ring
        · intro k hk1 hk2 hk3
          rw [e1 k hk1, r8 k hk1, b2 k hk1 (by omega) hk3, a2 k hk1 (by omega) (by omega)]; ring
      · intro i hi
        rcases Nat.lt_succ_iff_lt_or_eq.1 hi with c | c
        · rw [r5 i c]; exact i6 i c
        · subst c
          refine ⟨by rw [r8 i (by omega), a1, one_mul]; exact r6, fun k hk1 hk2 => ?_⟩
          rw [r8 k hk1, a2 k hk1 hk2.le (by omega), zero_mul])
  refine ⟨fs, G, h1, h2, g1, g3, fun j hj => ?_⟩
  have hN := g2 j hj
  refine ⟨hN.good, hN.lb, hN.ub, (g5 j hj).1, fun x => ?_⟩
  rw [KE.fn, gsum, hN.nk]
  rw [← sum_subset (range_subset_range.2 (by omega : j + 1 ≤ o.nnodes))]
  · refine sum_congr rfl fun k hk => ?_
    have hk := mem_range.1 hk
    rw [hN.ks k (by omega), hN.kw k (by omega), hN.kc k (by omega)]
  · intro k hk1 hk2
    rw [(g5 j hj).2 k (mem_range.1 hk1) (by rw [mem_range] at hk2; omega), zero_mul]

/-- The hypotheses can be met: two centres, two functions. -/
example : ∃ o fs, optsGauss 100 2 [3, 5] 1 2 = .ok o ∧ orthBasis 100 0 0 2 (setUb (setLb o 0) 7) = .ok fs := by
  obtain ⟨o, h1, h2, h3, h4, -⟩ := optsGauss_ok (big := 100) (cs := [3, 5]) (by simp; norm_num) 1 (width := 2) (by norm_num) (by simp)
  have hn : o.nnodes = 2 := h3
  obtain ⟨fs, G, g1, -⟩ := orthBasis_partial (o := setUb (setLb o 0) 7) (s := 1) (wd := 2) (tol := 0) ⟨h2.ty, h2.ot, h2.wd0, h2.cen⟩ one_ne_zero
    (by simp [setUb, setLb])
    (by
      simp only [setUb, setLb, hn, h4]
      intro i hi j hj e
      have hi : i = 0 ∨ i = 1 := by omega
      have hj : j = 0 ∨ j = 1 := by omega
      rcases hi with rfl | rfl <;> rcases hj with rfl | rfl <;> first | rfl | (norm_num at e)) le_rfl 100 (n := 2) (by simp [setUb, setLb, hn])
  exact ⟨o, fs, h1, g1⟩

/-- C97: with two equal centres the second function becomes zero and cannot be normalized. -/
theorem orthBasis_equal_counterexample {o : Opts} {s wd tol : ℝ} (h : OGood o s wd) (hs : s ≠ 0) (hlt : o.lb < o.ub) (ht : 0 ≤ tol) (big : ℝ)
    (hn : 2 ≤ o.nnodes) (he : o.centers.getD 0 0 = o.centers.getD 1 0) : orthBasis big 0 tol 2 o = .error .ub := by
  obtain ⟨fs0, F0, s1, s2, s3, s4⟩ := basisStart_ok h big hn
  have hfn : ∀ j < 2, ∀ x, (F0 j).fn x = gk s (wd * wd) (o.centers.getD j 0) x := by
    intro j hj x
    obtain ⟨hN, ha⟩ := s4 j hj
    rw [KE.fn, gsum, hN.nk, sum_eq_single j]
    · rw [ha j (by omega), if_pos rfl, hN.ks j (by omega), hN.kw j (by omega), hN.kc j (by omega), one_mul]
    · intro k hk hne
      rw [ha k (mem_range.1 hk), if_neg hne, zero_mul]
    · intro hk
      exact absurd (mem_range.2 (by omega)) hk
  have hgk : ∀ x, gk s (wd * wd) (o.centers.getD 0 0) x ≠ 0 := fun x => mul_ne_zero hs (Real.exp_ne_zero _)
  have hpos : 0 < ip o.lb o.ub (F0 0).fn (F0 0).fn := by
    unfold ip
    have hcont : Continuous (F0 0).fn := Nrm.cont
    refine intervalIntegral.integral_pos hlt (hcont.mul hcont).continuousOn (fun x _ => mul_self_nonneg _) ⟨o.lb, Set.left_mem_Icc.2 hlt.le, ?_⟩
    rw [hfn 0 (by omega)]
    exact mul_self_pos.2 (hgk _)
  obtain ⟨fs', G, r, r1, r2, r3, r4, r5, r6, r7, r8, r9, r10⟩ := gsStep_ok ht (n := 2) (ii := 0) (by omega) (fun j hj => (s4 j hj).1) s2 s3 hpos
  have e01 : (F0 1).fn = (F0 0).fn := by
    funext x
    rw [hfn 1 (by omega), hfn 0 (by omega), he]
  have eG : (G 0).fn = fun x => r * (F0 0).fn x := funext r9
  have hz : (G 1).fn = fun _ => 0 := by
    funext x
    rw [(r10 1 (by omega) (by omega)).2 x, e01, eG, ip_comm, ip_scale]
    have : r * ip o.lb o.ub (F0 0).fn (F0 0).fn * (r * (F0 0).fn x) = (r * r * ip o.lb o.ub (F0 0).fn (F0 0).fn) * (F0 0).fn x := by ring
    rw [this, r7]; ring
  unfold orthBasis
  rw [cassert, if_pos (decide_eq_true hn), bind_ok, s1, bind_ok]
  rw [show (2 : Nat) = 1 + 1 from rfl, forN_succ, show (1 : Nat) = 0 + 1 from rfl, forN_succ]
  change ((do let t ← Except.ok fs0; gsStep 0 tol 2 0 t) >>= gsStep 0 tol 2 1) = _
  rw [bind_ok, r1, bind_ok]
  unfold gsStep
  rw [rd_of_getElem? (r3 1 (by omega)), bind_ok, (r4 1 (by omega)).inner (r4 1 (by omega)), bind_ok]
  have : ip o.lb o.ub (G 1).fn (G 1).fn = 0 := by simp [ip, hz]
  rw [this, if_neg (lt_irrefl 0), Real.sqrt_zero, dv, if_pos rfl]; rfl

end C3.Kern

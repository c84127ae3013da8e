/-
C88: gradient and Hessian of the logarithm of a density.
-/
import Verif.Prob.DensMass
import Mathlib.Analysis.SpecialFunctions.Log.Deriv
import Mathlib.Analysis.Calculus.FDeriv.Pi
import Mathlib.Analysis.Calculus.FDeriv.Mul
import Mathlib.Analysis.Calculus.Deriv.Inv

namespace C3.Prob

open Finset Matrix

/-- The linear form of a vector: `HasFDerivAt F (form w) x` says that `w` is the gradient of `F` at `x`. -/
noncomputable def form {n : Nat} (w : Fin n → ℝ) : (Fin n → ℝ) →L[ℝ] ℝ := ∑ i, w i • ContinuousLinearMap.proj i

theorem form_apply {n : Nat} (w v : Fin n → ℝ) : form w v = w ⬝ᵥ v := by
  simp [form, dotProduct]

/-- `x ↦ M⁻¹(x - μ)` is affine. -/
theorem back_hasFDerivAt {n : Nat} (M : Matrix (Fin n) (Fin n) ℝ) (μ x : Fin n → ℝ) :
    HasFDerivAt (back M μ) (LinearMap.toContinuousLinearMap (toLin' M⁻¹)) x := by
  have h1 : HasFDerivAt (fun v : Fin n → ℝ => v - μ) (ContinuousLinearMap.id ℝ _) x := (hasFDerivAt_id x).sub_const μ
  exact (LinearMap.toContinuousLinearMap (toLin' M⁻¹)).hasFDerivAt.comp x h1

theorem form_comp_back {n : Nat} (M : Matrix (Fin n) (Fin n) ℝ) (w : Fin n → ℝ) :
    (form w).comp (LinearMap.toContinuousLinearMap (toLin' M⁻¹)) = form (M⁻¹ᵀ *ᵥ w) := by
  ext v
  simp only [ContinuousLinearMap.comp_apply, form_apply]
  show w ⬝ᵥ (M⁻¹ *ᵥ v) = (M⁻¹ᵀ *ᵥ w) ⬝ᵥ v
  rw [dotProduct_mulVec, mulVec_transpose]

variable {trtri : Nat → List ℝ → List ℝ} {n : Nat} {p : Dens ℝ} {M : Matrix (Fin n) (Fin n) ℝ} {μ : Fin n → ℝ} {δ : ℝ}

theorem dgemvTS_ok {d : Nat} (val : ℝ) {A x : List ℝ} (hA : A.length = d * d) (hx : x.length = d) :
    dgemvTS d val A x = .ok (List.ofFn (val • ((mtx d d A)ᵀ *ᵥ vct d x))) := by
  rw [dgemvTS, forN_fill_all (fun j => val * ∑ i ∈ range d, A.getD (j * d + i) 0 * x.getD i 0) (by simp)]
  · rw [map_range_ofFn]
    congr 2
    funext j
    rw [Pi.smul_apply, mulVec, dotProduct, sum_fin_range, smul_eq_mul]
    rfl
  · intro j hj b hb
    rw [forN_sum (fun i => A.getD (j * d + i) 0 * x.getD i 0), bind_ok, zero_add]
    intro i hi s
    rw [rd_getD 0 (by rw [hA]; exact cm_idx_lt hi hj), bind_ok, rd_getD 0 (by omega), bind_ok]; rfl

/-- What the log gradient returns for a transformed density, wherever the base density is not zero. -/
theorem densLogGrad_val (ht : TriInv trtri) (h : DensOk n p M μ δ) {x : Fin n → ℝ}
    (hg : (p.g (List.ofFn (back M μ x))).length = n) (hf : p.f (List.ofFn (back M μ x)) ≠ 0) :
    ∃ p', densLogGrad trtri p (List.ofFn x) =
      .ok (some (List.ofFn ((1 / p.f (List.ofFn (back M μ x))) • (M⁻¹ᵀ *ᵥ vct n (p.g (List.ofFn (back M μ x)))))), p') := by
  obtain ⟨lt, lt', Ai, bi, h1, h2, h3, h4, h5, h6, h7, h8, h9, h10, _, _, h11⟩ := h.invert ht
  have e : mtx n n Ai *ᵥ x + vct n bi = back M μ x := by
    rw [h9, h10, back, mulVec_sub, sub_eq_add_neg]
  refine ⟨{ p with lt := some lt' }, ?_⟩
  unfold densLogGrad
  rw [if_neg (by rw [h.tr]; decide), if_pos h.tr, h1, ptr, pure_eq_ok, bind_ok, h2, bind_ok, h3, ptr, pure_eq_ok, bind_ok, h5, h6,
    ltApply_ok h7 (by simp) h8, bind_ok, vct_ofFn, e, C3.Lin.dv_ok hf, bind_ok, h.dim, dgemvTS_ok _ h7 hg, bind_ok, h9]
  rfl

/-- Strictly inside the bounds. -/
def Inside {n : Nat} (lb ub t : Fin n → ℝ) : Prop := ∀ i, lb i < t i ∧ t i < ub i

theorem inside_nhds {n : Nat} {lb ub t : Fin n → ℝ} (h : Inside lb ub t) : ∀ᶠ u in nhds t, Within lb ub u := by
  have : ∀ᶠ u in nhds t, ∀ i, lb i ≤ u i ∧ u i ≤ ub i := by
    rw [Filter.eventually_all]
    intro i
    have hc : ContinuousAt (fun u : Fin n → ℝ => u i) t := (continuous_apply i).continuousAt
    exact (hc.eventually (lt_mem_nhds (h i).1)).mp ((hc.eventually (gt_mem_nhds (h i).2)).mono fun u h1 h2 => ⟨h2.le, h1.le⟩)
  exact this

/-- C88: the log gradient of a transformed density is the gradient of the logarithm of the density, at every point whose base point is strictly
inside the bounds and where the base density is not zero, provided the gradient of the base density is right there. -/
theorem logGrad_correct (ht : TriInv trtri) (h : DensOk n p M μ δ) {x : Fin n → ℝ}
    (hin : Inside (vct n p.lb) (vct n p.ub) (back M μ x)) (hg : (p.g (List.ofFn (back M μ x))).length = n)
    (hf : p.f (List.ofFn (back M μ x)) ≠ 0)
    (hd : HasFDerivAt (fun u => p.f (List.ofFn u)) (form (vct n (p.g (List.ofFn (back M μ x))))) (back M μ x)) :
    ∃ out p', densLogGrad trtri p (List.ofFn x) = .ok (some out, p') ∧ out.length = n ∧
      HasFDerivAt (fun v : Fin n → ℝ => Real.log (evalR trtri p v)) (form (vct n out)) x := by
  obtain ⟨p', e⟩ := densLogGrad_val ht h hg hf
  refine ⟨_, p', e, by simp, ?_⟩
  rw [vct_ofFn]
  obtain ⟨lt, _, hlt, _⟩ := h.lt
  have hδ : |1 / δ| ≠ 0 := by simpa using hlt.ne
  have h1 : HasFDerivAt (fun v => p.f (List.ofFn (back M μ v)) * |1 / δ|)
      (|1 / δ| • form (M⁻¹ᵀ *ᵥ vct n (p.g (List.ofFn (back M μ x))))) x := by
    rw [← form_comp_back]
    exact (hd.comp x (back_hasFDerivAt M μ x)).mul_const _
  have h2 := h1.log (mul_ne_zero hf hδ)
  have h3 : (fun v : Fin n → ℝ => Real.log (evalR trtri p v)) =ᶠ[nhds x] fun v => Real.log (p.f (List.ofFn (back M μ v)) * |1 / δ|) := by
    have := (back_hasFDerivAt M μ x).continuousAt.eventually (inside_nhds hin)
    refine this.mono fun v hv => ?_
    dsimp only
    rw [evalR_eq ht h, if_pos hv]
  refine (h2.congr_of_eventuallyEq h3).congr_fderiv ?_
  ext v
  simp only [_root_.smul_apply, form_apply, smul_eq_mul, smul_dotProduct]
  field_simp

theorem densLogGrad_plain_val (hd : p.dim = n) (hl : p.lb.length = n) (hu : p.ub.length = n) (h0 : p.transform = 0) {x : Fin n → ℝ}
    (hw : Within (vct n p.lb) (vct n p.ub) x) (hg : (p.g (List.ofFn x)).length = n) (hf : p.f (List.ofFn x) ≠ 0) :
    densLogGrad trtri p (List.ofFn x) = .ok (some (List.ofFn ((1 / p.f (List.ofFn x)) • vct n (p.g (List.ofFn x)))), p) := by
  unfold densLogGrad
  rw [if_pos h0, densEval_plain trtri hd hl hu h0 (by simp), bind_ok]
  dsimp only
  rw [vct_ofFn, if_pos hw, C3.Lin.dv_ok hf, bind_ok, hd, C3.Lin.forN_inplace hg (fun _ v => v * (1 / p.f (List.ofFn x))), bind_ok]
  · rw [map_range_ofFn]
    have : (fun i : Fin n => (p.g (List.ofFn x)).getD i.1 0 * (1 / p.f (List.ofFn x))) =
        (1 / p.f (List.ofFn x)) • vct n (p.g (List.ofFn x)) := by
      funext i; rw [Pi.smul_apply, smul_eq_mul, mul_comm]; rfl
    rw [this]; rfl
  · intro i hi b hb e
    rw [rd_getD 0 (by omega), bind_ok, e]

/-- C88: without a transform the log gradient is the gradient of the logarithm as well. -/
theorem logGrad_plain (hd : p.dim = n) (hl : p.lb.length = n) (hu : p.ub.length = n) (h0 : p.transform = 0) {x : Fin n → ℝ}
    (hin : Inside (vct n p.lb) (vct n p.ub) x) (hg : (p.g (List.ofFn x)).length = n) (hf : p.f (List.ofFn x) ≠ 0)
    (hdf : HasFDerivAt (fun u => p.f (List.ofFn u)) (form (vct n (p.g (List.ofFn x)))) x) :
    ∃ out p', densLogGrad trtri p (List.ofFn x) = .ok (some out, p') ∧ out.length = n ∧
      HasFDerivAt (fun v : Fin n → ℝ => Real.log (evalR trtri p v)) (form (vct n out)) x := by
  have hw : Within (vct n p.lb) (vct n p.ub) x := fun i => ⟨(hin i).1.le, (hin i).2.le⟩
  refine ⟨List.ofFn ((1 / p.f (List.ofFn x)) • vct n (p.g (List.ofFn x))), p, ?_, by simp, ?_⟩
  · exact densLogGrad_plain_val hd hl hu h0 hw hg hf
  · rw [vct_ofFn]
    have h3 : (fun v : Fin n → ℝ => Real.log (evalR trtri p v)) =ᶠ[nhds x] fun v => Real.log (p.f (List.ofFn v)) := by
      refine (inside_nhds hin).mono fun v hv => ?_
      dsimp only
      rw [evalR, densEval_plain trtri hd hl hu h0 (by simp), vct_ofFn, if_pos hv]
    refine ((hdf.log hf).congr_of_eventuallyEq h3).congr_fderiv ?_
    ext v
    simp only [_root_.smul_apply, form_apply, smul_eq_mul, smul_dotProduct, one_div]

/-! ### Hessian -/

/-- The log gradient as a function. -/
noncomputable def logGradR (trtri : Nat → List ℝ → List ℝ) (p : Dens ℝ) {n : Nat} (v : Fin n → ℝ) : Fin n → ℝ :=
  match densLogGrad trtri p (List.ofFn v) with
  | .ok (some out, _) => vct n out
  | _ => 0

theorem logHess0_ok {d : Nat} (val : ℝ) {g h : List ℝ} (hg : g.length = d) (hh : h.length = d * d) :
    logHess0 d val g h = .ok (cm d d fun i j => -(val ^ 2) * g.getD i 0 * g.getD j 0 + val * h.getD (j * d + i) 0) := by
  unfold logHess0
  refine forN_fill_cm' _ (by simp) ?_
  intro i hi j hj b hb
  rw [rd_getD 0 (by omega), bind_ok, rd_getD 0 (by omega), bind_ok, rd_getD 0 (by rw [hh]; exact cm_idx_lt hi hj), bind_ok]

theorem logHess1_ok {n : Nat} (val : ℝ) {A g h : List ℝ} (hA : A.length = n * n) (hg : g.length = n) (hh : h.length = n * n) :
    ∃ out, logHess1 n n val A g h = .ok out ∧ out.length = n * n ∧
      mtx n n out = val • ((mtx n n A)ᵀ * (mtx n n h) * mtx n n A) -
        val ^ 2 • vecMulVec ((mtx n n A)ᵀ *ᵥ vct n g) ((mtx n n A)ᵀ *ᵥ vct n g) := by
  unfold logHess1
  rw [forN_fill_all (fun ii => ∑ i ∈ range n, g.getD i 0 * A.getD (n * ii + i) 0) (by simp)]
  · rw [bind_ok]
    set gp := (List.range n).map (fun ii => ∑ i ∈ range n, g.getD i 0 * A.getD (n * ii + i) 0) with hgp
    have hgl : gp.length = n := by simp [hgp]
    set T : Nat → Nat → ℝ := fun ii j => val * ∑ i ∈ range n, h.getD (j * n + i) 0 * A.getD (ii * n + i) 0 with hT
    set G : Nat → Nat → ℝ := fun ii jj => -gp.getD jj 0 * gp.getD ii 0 * val ^ 2 + ∑ i ∈ range n, T ii i * A.getD (jj * n + i) 0 with hG
    obtain ⟨⟨o, t⟩, e, h1, h2, h3⟩ := forN_spec (n := n) (s := (List.replicate (n * n) (0 : ℝ), List.replicate n (0 : ℝ)))
      (body := fun ii (st : List ℝ × List ℝ) => do
        let t ← forN n (fun j y => do
          let s ← forN n (fun i s => do
            let a ← rd h (j * n + i)
            let v ← rd A (ii * n + i)
            pure (s + a * v)) 0
          wr y j (val * s)) st.2
        let o ← forN n (fun jj o => do
          let a ← rd gp jj
          let b ← rd gp ii
          let s ← forN n (fun i s => do
            let u ← rd t i
            let v ← rd A (jj * n + i)
            pure (s + u * v)) 0
          wr o (jj * n + ii) (-a * b * val ^ 2 + s)) st.1
        pure (o, t))
      (I := fun k (st : List ℝ × List ℝ) => st.1.length = n * n ∧ st.2.length = n ∧
        ∀ i < k, ∀ j < n, st.1.getD (j * n + i) 0 = G i j)
      ⟨by simp, by simp, by simp⟩
      (by
        rintro ii hii ⟨o, t⟩ ⟨i1, i2, i3⟩
        dsimp only at i1 i2 i3 ⊢
        rw [forN_fill_all (fun j => T ii j) i2]
        · rw [bind_ok]
          obtain ⟨o', e, l, w, u⟩ := forN_scatter (n := n) (a := o) (body := fun jj o => do
              let a ← rd gp jj
              let b ← rd gp ii
              let s ← forN n (fun i s => do
                let u ← rd ((List.range n).map fun j => T ii j) i
                let v ← rd A (jj * n + i)
                pure (s + u * v)) 0
              wr o (jj * n + ii) (-a * b * val ^ 2 + s)) (fun jj => jj * n + ii) (fun jj => G ii jj)
            (by intro j hj; rw [i1]; exact cm_idx_lt hii hj)
            (by
              intro j hj j' hj' e
              have := congrArg (· / n) e
              simpa only [cm_div hii] using this)
            (by
              intro j hj b hb _ _
              rw [rd_getD 0 (by omega), bind_ok, rd_getD 0 (by omega), bind_ok,
                forN_sum (fun i => T ii i * A.getD (j * n + i) 0), bind_ok, zero_add]
              intro i hi s
              rw [rd_getD 0 (by simpa using hi), bind_ok, rd_getD 0 (by rw [hA]; exact cm_idx_lt hi hj), bind_ok]
              rw [List.getD_eq_getElem?_getD, List.getElem?_map, List.getElem?_range hi]
              rfl)
          rw [e, bind_ok]
          refine ⟨_, rfl, by simpa [l] using i1, by simp, ?_⟩
          intro i hi j hj
          dsimp only
          by_cases c : i = ii
          · subst c
            rw [List.getD_eq_getElem?_getD, w j hj]; rfl
          · rw [List.getD_eq_getElem?_getD, u (j * n + i), ← List.getD_eq_getElem?_getD]
            · exact i3 i (by omega) j hj
            · intro j' hj' e'
              have := congrArg (· % n) e'
              simp only [cm_mod hii, cm_mod (show i < n by omega)] at this
              exact c this.symm
        · intro j hj b hb
          rw [forN_sum (fun i => h.getD (j * n + i) 0 * A.getD (ii * n + i) 0), bind_ok, zero_add]
          intro i hi s
          rw [rd_getD 0 (by rw [hh]; exact cm_idx_lt hi hj), bind_ok, rd_getD 0 (by rw [hA]; exact cm_idx_lt hi hii), bind_ok]
          rfl)
    rw [e, bind_ok]
    refine ⟨o, rfl, h1, ?_⟩
    dsimp only at h3
    funext i j
    have gpe : ∀ k : Fin n, gp.getD k.1 0 = ((mtx n n A)ᵀ *ᵥ vct n g) k := by
      intro k
      rw [hgp, List.getD_eq_getElem?_getD, List.getElem?_map, List.getElem?_range k.2]
      show ∑ i ∈ range n, g.getD i 0 * A.getD (n * k.1 + i) 0 = _
      rw [sum_fin_range (fun i => g.getD i 0 * A.getD (n * k.1 + i) 0)]
      refine sum_congr rfl fun i _ => ?_
      rw [mul_comm, mul_comm n]
      rfl
    show o.getD (j.1 * n + i.1) 0 = _
    rw [h3 i.1 i.2 j.1 j.2, hG]
    dsimp only
    rw [gpe i, gpe j]
    simp only [Matrix.sub_apply, Matrix.smul_apply, smul_eq_mul, vecMulVec_apply]
    have : (∑ k ∈ range n, T i.1 k * A.getD (j.1 * n + k) 0) = val * ((mtx n n A)ᵀ * mtx n n h * mtx n n A) i j := by
      rw [Matrix.mul_apply, mul_sum, sum_fin_range (fun k => T i.1 k * A.getD (j.1 * n + k) 0)]
      refine sum_congr rfl fun k _ => ?_
      rw [hT, Matrix.mul_apply]
      dsimp only
      rw [sum_fin_range (fun l => h.getD (k.1 * n + l) 0 * A.getD (i.1 * n + l) 0), mul_assoc]
      congr 2
      refine sum_congr rfl fun l _ => ?_
      rw [mul_comm]; rfl
    rw [this]; ring
  · intro ii hii b hb
    rw [forN_sum (fun i => g.getD i 0 * A.getD (n * ii + i) 0), bind_ok, zero_add]
    intro i hi s
    rw [rd_getD 0 (by omega), bind_ok, rd_getD 0 (by rw [hA, mul_comm n ii]; exact cm_idx_lt hi hii), bind_ok]
    rfl

/-- The derivative of one component of `v ↦ (1/f(b v)) (M⁻ᵀ g(b v))`. -/
theorem quot_deriv {F : (Fin n → ℝ) → ℝ} {Gr : (Fin n → ℝ) → Fin n → ℝ} {H N : Matrix (Fin n) (Fin n) ℝ} {x : Fin n → ℝ}
    (hF : HasFDerivAt F (form (N *ᵥ Gr x)) x) (hne : F x ≠ 0)
    (hG : ∀ k, HasFDerivAt (fun v => Gr v k) (form (H k)) x) (i : Fin n) :
    HasFDerivAt (fun v => ((1 / F v) • (N *ᵥ Gr v)) i)
      (form (((1 / F x) • (N * H) - (1 / F x) ^ 2 • vecMulVec (N *ᵥ Gr x) (N *ᵥ Gr x)) i)) x := by
  have h1 : HasFDerivAt (fun v => (N *ᵥ Gr v) i) (form ((N * H) i)) x := by
    have := HasFDerivAt.fun_sum (u := univ) fun k _ => (hG k).const_mul (N i k)
    refine this.congr_fderiv ?_
    ext v
    simp only [_root_.sum_apply, _root_.smul_apply, form_apply, smul_eq_mul]
    simp only [dotProduct, Matrix.mul_apply, sum_mul, mul_sum]
    rw [sum_comm]
    refine sum_congr rfl fun _ _ => sum_congr rfl fun _ _ => by ring
  have h2 := ((hasDerivAt_inv hne).comp_hasFDerivAt x hF).mul h1
  have e : (fun v => ((1 / F v) • (N *ᵥ Gr v)) i) = fun v => (F v)⁻¹ * (N *ᵥ Gr v) i := by
    funext v; simp
  rw [e]
  refine h2.congr_fderiv ?_
  ext v
  simp only [_root_.add_apply, _root_.smul_apply, form_apply, smul_eq_mul]
  have : (((1 / F x) • (N * H) - (1 / F x) ^ 2 • vecMulVec (N *ᵥ Gr x) (N *ᵥ Gr x)) i) ⬝ᵥ v =
      (1 / F x) * ((N * H) i ⬝ᵥ v) - (1 / F x) ^ 2 * ((N *ᵥ Gr x) i * ((N *ᵥ Gr x) ⬝ᵥ v)) := by
    simp only [dotProduct, mul_sum, ← sum_sub_distrib]
    refine sum_congr rfl fun k _ => ?_
    simp only [Matrix.sub_apply, Matrix.smul_apply, smul_eq_mul, vecMulVec_apply]
    ring
  rw [this, Function.comp_apply]
  field_simp
  ring

/-- C88: the log Hessian of a transformed density is the derivative of its log gradient, provided the gradient and the Hessian of the base
density are right. -/
theorem logHess_correct (ht : TriInv trtri) (h : DensOk n p M μ δ) {x : Fin n → ℝ}
    (hg : ∀ u, (p.g (List.ofFn (n := n) u)).length = n) (hh : (p.h (List.ofFn (back M μ x))).length = n * n)
    (hf : p.f (List.ofFn (back M μ x)) ≠ 0)
    (hd : HasFDerivAt (fun u => p.f (List.ofFn u)) (form (vct n (p.g (List.ofFn (back M μ x))))) (back M μ x))
    (hd2 : ∀ k, HasFDerivAt (fun u => vct n (p.g (List.ofFn u)) k) (form (mtx n n (p.h (List.ofFn (back M μ x))) k)) (back M μ x)) :
    ∃ out p', densLogHess trtri p (List.ofFn x) = .ok (some out, p') ∧ out.length = n * n ∧
      ∀ i, HasFDerivAt (fun v : Fin n → ℝ => logGradR trtri p v i) (form (mtx n n out i)) x := by
  obtain ⟨lt, lt', Ai, bi, h1, h2, h3, h4, h5, h6, h7, h8, h9, h10, _, _, h11⟩ := h.invert ht
  have e : mtx n n Ai *ᵥ x + vct n bi = back M μ x := by
    rw [h9, h10, back, mulVec_sub, sub_eq_add_neg]
  obtain ⟨out, e1, e2, e3⟩ := logHess1_ok (1 / p.f (List.ofFn (back M μ x))) h7 (hg (back M μ x)) hh
  refine ⟨out, { p with lt := some lt' }, ?_, e2, ?_⟩
  · unfold densLogHess
    rw [if_neg (by rw [h.tr]; decide), if_pos h.tr, h1, ptr, pure_eq_ok, bind_ok, h2, bind_ok, h3, ptr, pure_eq_ok, bind_ok, h5, h6,
      ltApply_ok h7 (by simp) h8, bind_ok, vct_ofFn, e, C3.Lin.dv_ok hf, bind_ok, h.dim, e1, bind_ok]
    rfl
  · intro i
    have hb := back_hasFDerivAt M μ x
    have hF : HasFDerivAt (fun v => p.f (List.ofFn (back M μ v))) (form (M⁻¹ᵀ *ᵥ vct n (p.g (List.ofFn (back M μ x))))) x := by
      rw [← form_comp_back]; exact hd.comp x hb
    have hev : (fun v : Fin n → ℝ => logGradR trtri p v i) =ᶠ[nhds x]
        fun v => ((1 / p.f (List.ofFn (back M μ v))) • (M⁻¹ᵀ *ᵥ vct n (p.g (List.ofFn (back M μ v))))) i := by
      refine (hF.continuousAt.eventually_ne hf).mono fun v hv => ?_
      obtain ⟨p', e⟩ := densLogGrad_val ht h (x := v) (hg _) hv
      dsimp only
      rw [logGradR, e]
      dsimp only
      rw [vct_ofFn]
    rw [e3, h9, Matrix.mul_assoc]
    refine HasFDerivAt.congr_of_eventuallyEq ?_ hev
    refine quot_deriv (F := fun v => p.f (List.ofFn (back M μ v))) (Gr := fun v => vct n (p.g (List.ofFn (back M μ v)))) hF hf ?_ i
    intro k
    refine ((hd2 k).comp x hb).congr_fderiv ?_
    rw [form_comp_back, mulVec_transpose]
    rfl

/-- C88: the same without a transform. -/
theorem logHess_plain (hd : p.dim = n) (hl : p.lb.length = n) (hu : p.ub.length = n) (h0 : p.transform = 0) {x : Fin n → ℝ}
    (hin : Inside (vct n p.lb) (vct n p.ub) x) (hg : ∀ u, (p.g (List.ofFn (n := n) u)).length = n)
    (hh : (p.h (List.ofFn x)).length = n * n) (hf : p.f (List.ofFn x) ≠ 0)
    (hdf : HasFDerivAt (fun u => p.f (List.ofFn u)) (form (vct n (p.g (List.ofFn x)))) x)
    (hd2 : ∀ k, HasFDerivAt (fun u => vct n (p.g (List.ofFn u)) k) (form (mtx n n (p.h (List.ofFn x)) k)) x) :
    ∃ out p', densLogHess trtri p (List.ofFn x) = .ok (some out, p') ∧ out.length = n * n ∧
      ∀ i, HasFDerivAt (fun v : Fin n → ℝ => logGradR trtri p v i) (form (mtx n n out i)) x := by
  have hw : Within (vct n p.lb) (vct n p.ub) x := fun i => ⟨(hin i).1.le, (hin i).2.le⟩
  refine ⟨cm n n fun i j => -((1 / p.f (List.ofFn x)) ^ 2) * (p.g (List.ofFn x)).getD i 0 * (p.g (List.ofFn x)).getD j 0 +
    1 / p.f (List.ofFn x) * (p.h (List.ofFn x)).getD (j * n + i) 0, p, ?_, cm_length _ _ _, ?_⟩
  · unfold densLogHess
    rw [if_pos h0, densEval_plain trtri hd hl hu h0 (by simp), bind_ok]
    dsimp only
    rw [vct_ofFn, if_pos hw, C3.Lin.dv_ok hf, bind_ok, hd, logHess0_ok _ (hg x) hh, bind_ok]
    rfl
  · intro i
    have hev : (fun v : Fin n → ℝ => logGradR trtri p v i) =ᶠ[nhds x]
        fun v => ((1 / p.f (List.ofFn v)) • ((1 : Matrix (Fin n) (Fin n) ℝ) *ᵥ vct n (p.g (List.ofFn v)))) i := by
      refine (hdf.continuousAt.eventually_ne hf).mp ((inside_nhds hin).mono fun v hv hv' => ?_)
      dsimp only
      rw [logGradR, densLogGrad_plain_val hd hl hu h0 hv (hg v) hv']
      dsimp only
      rw [vct_ofFn, one_mulVec]
    refine HasFDerivAt.congr_of_eventuallyEq ?_ hev
    have := quot_deriv (F := fun v => p.f (List.ofFn v)) (Gr := fun v => vct n (p.g (List.ofFn v)))
      (H := mtx n n (p.h (List.ofFn x))) (N := 1) (by rw [one_mulVec]; exact hdf) hf hd2 i
    refine this.congr_fderiv ?_
    congr 1
    rw [mtx_cm]
    funext j
    simp only [one_mulVec, one_mul, Matrix.sub_apply, Matrix.smul_apply, smul_eq_mul, vecMulVec_apply]
    simp only [vct, mtx]
    ring

/-- The density `exDens` with the base density `2 + s`. -/
noncomputable def exDens2 : Dens ℝ := { exDens with f := fun t => 2 + t.getD 0 0, g := fun _ => [1, 0] }

/-- A point that belongs to the point `(1/2, 1/2)` of the base density. -/
theorem exBack : back (mtx 2 2 [2, 1, 0, 4]) (vct 2 [1, 3]) ![2, 11 / 2] = (![1 / 2, 1 / 2] : Fin 2 → ℝ) := by
  have h : (mtx 2 2 [2, 1, 0, 4] : Matrix (Fin 2) (Fin 2) ℝ) *ᵥ ![1 / 2, 1 / 2] = ![2, 11 / 2] - vct 2 [1, 3] := by
    funext i; fin_cases i <;> simp [mtx, vct, mulVec, dotProduct] <;> norm_num
  have hd : IsUnit (mtx 2 2 [2, 1, 0, 4] : Matrix (Fin 2) (Fin 2) ℝ).det := by
    rw [det_fin_two]; simp [mtx]
  rw [back, ← h, mulVec_mulVec, nonsing_inv_mul _ hd, one_mulVec]

/-- The hypotheses of `logGrad_correct` and `logHess_correct` can be met. -/
example : DensOk 2 exDens2 (mtx 2 2 [2, 1, 0, 4]) (vct 2 [1, 3]) 8 ∧
    Inside (vct 2 exDens2.lb) (vct 2 exDens2.ub) (back (mtx 2 2 [2, 1, 0, 4]) (vct 2 [1, 3]) ![2, 11 / 2]) ∧
    exDens2.f (List.ofFn (back (mtx 2 2 [2, 1, 0, 4]) (vct 2 [1, 3]) ![2, 11 / 2])) ≠ 0 ∧
    (∀ t : Fin 2 → ℝ, HasFDerivAt (fun u => exDens2.f (List.ofFn u)) (form (vct 2 (exDens2.g (List.ofFn t)))) t) ∧
    ∀ (t : Fin 2 → ℝ) (k : Fin 2), HasFDerivAt (fun u => vct 2 (exDens2.g (List.ofFn (n := 2) u)) k)
      (form (mtx 2 2 (exDens2.h (List.ofFn t)) k)) t := by
  refine ⟨⟨exDens_ok.dim, exDens_ok.lb, exDens_ok.ub, exDens_ok.tr, exDens_ok.lt, exDens_ok.low⟩, ?_, ?_, ?_, ?_⟩
  · rw [exBack]; intro i; fin_cases i <;> simp [exDens2, exDens, vct] <;> norm_num
  · rw [exBack]; simp [exDens2]; norm_num
  · intro t
    have h : HasFDerivAt (fun u : Fin 2 → ℝ => 2 + u 0) (ContinuousLinearMap.proj 0 : (Fin 2 → ℝ) →L[ℝ] ℝ) t :=
      (ContinuousLinearMap.proj 0 : (Fin 2 → ℝ) →L[ℝ] ℝ).hasFDerivAt.const_add 2
    have e : (fun u : Fin 2 → ℝ => exDens2.f (List.ofFn u)) = fun u => 2 + u 0 := by funext u; simp [exDens2]
    rw [e]
    refine h.congr_fderiv ?_
    ext v
    simp [form_apply, dotProduct, vct, exDens2]
  · intro t k
    refine (hasFDerivAt_const (vct 2 ([1, 0] : List ℝ) k) t).congr_fderiv ?_
    ext v
    fin_cases k <;> simp [form_apply, dotProduct, exDens2, exDens, mtx]

end C3.Prob

/-
C88: probability densities under a linear transform: evaluation, normal densities, sampling.
-/
import Verif.Prob.LtProps
import Verif.Opt.LbfgsAlg

namespace C3.Prob

open Finset Matrix

variable {K : Type} [Field K] [LinearOrder K] [IsStrictOrderedRing K]

set_option linter.unusedSectionVars false

/-- Inside the bounds. -/
def Within {n : Nat} (lb ub t : Fin n → K) : Prop := ∀ i, lb i ≤ t i ∧ t i ≤ ub i

instance {n : Nat} (lb ub t : Fin n → K) : Decidable (Within lb ub t) := by unfold Within; infer_instance

theorem inBox_ok {n : Nat} {lb ub x : List K} (hl : lb.length = n) (hu : ub.length = n) (hx : x.length = n) :
    inBox n lb ub x = .ok (decide (Within (vct n lb) (vct n ub) (vct n x))) := by
  obtain ⟨s, h1, h2⟩ := forN_spec (n := n) (s := true)
    (body := fun ii good =>
      if good then do
        let v ← rd x ii
        let l ← rd lb ii
        if v < l then pure false
        else do
          let u ← rd ub ii
          pure (decide (¬ v > u))
      else pure false)
    (I := fun k (s : Bool) => s = true ↔ ∀ i < k, lb.getD i 0 ≤ x.getD i 0 ∧ x.getD i 0 ≤ ub.getD i 0)
    (by simp)
    (by
      intro k hk s hs
      cases s with
      | false =>
        refine ⟨false, by simp, ?_⟩
        simp only [Bool.false_eq_true, false_iff] at hs ⊢
        intro h; exact hs fun i hi => h i (by omega)
      | true =>
        have hs' := hs.1 rfl
        simp only [if_true]
        rw [rd_getD 0 (by omega), bind_ok, rd_getD 0 (by omega), bind_ok]
        by_cases c : x.getD k 0 < lb.getD k 0
        · rw [if_pos c]
          refine ⟨false, rfl, ?_⟩
          simp only [Bool.false_eq_true, false_iff]
          intro h; exact absurd (h k (by omega)).1 (not_le.2 c)
        · rw [if_neg c, rd_getD 0 (by omega), bind_ok]
          refine ⟨_, rfl, ?_⟩
          rw [decide_eq_true_iff]
          constructor
          · intro hle i hi
            rcases Nat.lt_succ_iff_lt_or_eq.1 hi with h | h
            · exact hs' i h
            · subst h; exact ⟨not_lt.1 c, not_lt.1 hle⟩
          · intro h; exact not_lt.2 (h k (by omega)).2)
  rw [inBox, h1]
  congr 1
  rw [Bool.eq_iff_iff, h2, decide_eq_true_iff]
  constructor
  · intro h i; exact h i.1 i.2
  · intro h i hi; exact h ⟨i, hi⟩

/-- A density on a base density in `n` variables with the transform `x = M t + μ`, `M` lower triangular, whose determinant field is `δ`; the
inverse may have been computed before. -/
structure DensOk (n : Nat) (p : Dens K) (M : Matrix (Fin n) (Fin n) K) (μ : Fin n → K) (δ : K) : Prop where
  dim : p.dim = n
  lb : p.lb.length = n
  ub : p.ub.length = n
  tr : p.transform = 1
  lt : ∃ lt, p.lt = some lt ∧ LtOk n lt δ ∧ mtx n n lt.A = M ∧ vct n lt.b = μ ∧
    (lt.inv = none ∨ ∃ Ai bi, lt.inv = some (Ai, bi) ∧ Ai.length = n * n ∧ bi.length = n ∧ M * mtx n n Ai = 1 ∧
      vct n bi = -(mtx n n Ai *ᵥ μ) ∧ lt.detinv = some (1 / δ))
  low : low M = M

/-- The transform of a density is inverted once; afterwards the cached inverse is used. -/
theorem DensOk.invert {trtri : Nat → List K → List K} (ht : TriInv trtri) {n : Nat} {p : Dens K} {M : Matrix (Fin n) (Fin n) K}
    {μ : Fin n → K} {δ : K} (h : DensOk n p M μ δ) :
    ∃ lt lt' Ai bi, p.lt = some lt ∧ ltInvert trtri lt = .ok lt' ∧ lt'.inv = some (Ai, bi) ∧ lt'.detinv = some (1 / δ) ∧
      lt'.dimin = n ∧ lt'.dimout = n ∧ Ai.length = n * n ∧ bi.length = n ∧ mtx n n Ai = M⁻¹ ∧ vct n bi = -(M⁻¹ *ᵥ μ) ∧
      lt'.A = lt.A ∧ lt'.b = lt.b ∧ DensOk n { p with lt := some lt' } M μ δ := by
  obtain ⟨lt, h1, h2, h3, h4, h5⟩ := h.lt
  rcases h5 with h5 | ⟨Ai, bi, e1, e2, e3, e4, e5, e6⟩
  · obtain ⟨Ai, bi, e1, e2, e3, e4, e5⟩ := ltInvert_ok ht h2 h5
    rw [h3, h.low] at e4
    rw [h4] at e5
    have hinv : M⁻¹ = mtx n n Ai := inv_eq_right_inv e4
    refine ⟨lt, _, Ai, bi, h1, e1, rfl, rfl, h2.din, h2.dout, e2, e3, hinv.symm, by rw [hinv]; exact e5, rfl, rfl,
      ⟨h.dim, h.lb, h.ub, h.tr, ⟨_, rfl, ⟨h2.din, h2.dout, h2.lA, h2.lb, h2.mt, h2.hdet, h2.ne, h2.diag⟩, h3, h4,
        Or.inr ⟨Ai, bi, rfl, e2, e3, e4, e5, rfl⟩⟩, h.low⟩⟩
  · have hinv : M⁻¹ = mtx n n Ai := inv_eq_right_inv e4
    refine ⟨lt, lt, Ai, bi, h1, ltInvert_again trtri e1, e1, e6, h2.din, h2.dout, e2, e3, hinv.symm, by rw [hinv]; exact e5, rfl, rfl, ?_⟩
    exact ⟨h.dim, h.lb, h.ub, h.tr, ⟨lt, rfl, h2, h3, h4, Or.inr ⟨Ai, bi, e1, e2, e3, e4, e5, e6⟩⟩, h.low⟩

/-- The point of the base density that belongs to `x`. -/
noncomputable def back {n : Nat} (M : Matrix (Fin n) (Fin n) K) (μ x : Fin n → K) : Fin n → K := M⁻¹ *ᵥ (x - μ)

/-- C88: the density at `x` is the base density at `M⁻¹(x - μ)` divided by the determinant, zero if that point is outside the bounds of the
base density. The density afterwards evaluates the same. -/
theorem densEval_ok {trtri : Nat → List K → List K} (ht : TriInv trtri) {n : Nat} {p : Dens K} {M : Matrix (Fin n) (Fin n) K}
    {μ : Fin n → K} {δ : K} (h : DensOk n p M μ δ) {x : List K} (hx : x.length = n) :
    ∃ p', densEval trtri p x = .ok (if Within (vct n p.lb) (vct n p.ub) (back M μ (vct n x)) then
        p.f (List.ofFn (back M μ (vct n x))) * |1 / δ| else 0, p') ∧
      DensOk n p' M μ δ ∧ p'.f = p.f ∧ p'.g = p.g ∧ p'.h = p.h ∧ p'.lb = p.lb ∧ p'.ub = p.ub := by
  obtain ⟨lt, lt', Ai, bi, h1, h2, h3, h4, h5, h6, h7, h8, h9, h10, _, _, h11⟩ := h.invert ht
  refine ⟨{ p with lt := some lt' }, ?_, h11, rfl, rfl, rfl, rfl, rfl⟩
  have e : mtx n n Ai *ᵥ vct n x + vct n bi = back M μ (vct n x) := by
    rw [h9, h10, back, mulVec_sub, sub_eq_add_neg]
  unfold densEval
  rw [if_pos h.tr, h1, ptr, pure_eq_ok, bind_ok, h2, bind_ok, h3, ptr, pure_eq_ok, bind_ok, h5, h6, ltApply_ok h7 hx h8, bind_ok, e, h.dim,
    inBox_ok h.lb h.ub (by simp), bind_ok, vct_ofFn]
  by_cases c : Within (vct n p.lb) (vct n p.ub) (back M μ (vct n x))
  · rw [if_pos (by simpa using c), if_pos c, h4, field, pure_eq_ok, bind_ok]; rfl
  · rw [if_neg (by simpa using c), if_neg c]; rfl

/-- C88: without a transform the density is the base density inside its bounds and zero outside. -/
theorem densEval_plain (trtri : Nat → List K → List K) {n : Nat} {p : Dens K} (hd : p.dim = n) (hl : p.lb.length = n)
    (hu : p.ub.length = n) (h0 : p.transform = 0) {x : List K} (hx : x.length = n) :
    densEval trtri p x = .ok (if Within (vct n p.lb) (vct n p.ub) (vct n x) then p.f x else 0, p) := by
  unfold densEval
  rw [if_neg (by rw [h0]; decide), hd, inBox_ok hl hu hx, bind_ok]
  by_cases c : Within (vct n p.lb) (vct n p.ub) (vct n x)
  · rw [if_pos (by simpa using c), if_pos c]; rfl
  · rw [if_neg (by simpa using c), if_neg c]; rfl

/-! ### Normal densities -/

/-- The symmetric matrix given by the lower triangle of a buffer. -/
def symL {n : Nat} (M : Matrix (Fin n) (Fin n) K) : Matrix (Fin n) (Fin n) K := fun i j => if j ≤ i then M i j else M j i

/-- Contract of LAPACK's `dpotrf("L",...)` on one matrix, if it succeeds: the lower triangle of the result is a Cholesky factor of the
symmetric matrix given by the lower triangle. -/
def CholAt (potrf : Nat → List K → List K) (n : Nat) (cov : List K) : Prop :=
  (potrf n cov).length = n * n ∧ low (mtx n n (potrf n cov)) * (low (mtx n n (potrf n cov)))ᵀ = symL (mtx n n cov) ∧
    ∀ i : Fin n, mtx n n (potrf n cov) i i ≠ 0

theorem copyLoop_ok {n : Nat} {s b : List K} (hs : s.length = n) (hb : b.length = n) :
    forN n (fun i d => do
      let v ← rd s i
      wr d i v) b = .ok s := by
  rw [forN_fill_all (fun i => s.getD i 0) hb]
  · rw [map_range_ofFn]; exact congrArg _ (ofFn_vct hs)
  · intro i hi c hc
    rw [rd_getD 0 (by omega), bind_ok]

/-- The product of the diagonal, and zeros above the diagonal. -/
theorem detLoop_ok {n : Nat} {A : List K} (hA : A.length = n * n) :
    ∃ A', forN n (fun ii (st : K × List K) => do
        let v ← rd st.2 (ii * n + ii)
        let a ← forN ii (fun jj a => wr a (ii * n + jj) 0) st.2
        pure (st.1 * v, a)) (1, A) = .ok (∏ i : Fin n, mtx n n A i i, A') ∧ A'.length = n * n ∧ mtx n n A' = low (mtx n n A) := by
  have hA' := eq_cm_getD hA
  set g : Nat → Nat → K := fun i j => A.getD (j * n + i) 0 with hg
  obtain ⟨s, h1, h2, h3⟩ := forN_spec (n := n) (s := ((1 : K), A))
    (body := fun ii (st : K × List K) => do
      let v ← rd st.2 (ii * n + ii)
      let a ← forN ii (fun jj a => wr a (ii * n + jj) 0) st.2
      pure (st.1 * v, a))
    (I := fun k (st : K × List K) => st.1 = ∏ i ∈ range k, g i i ∧ st.2 = cm n n (fun i j => if j < k ∧ i < j then 0 else g i j))
    ⟨by simp, by
      dsimp only
      conv_lhs => rw [hA']
      apply cm_congr; intro i _ j _; rw [if_neg (by omega)]⟩
    (by
      rintro k hk ⟨s1, s2⟩ ⟨i1, i2⟩
      dsimp only at i1 i2
      subst i1 i2
      refine ⟨((∏ i ∈ range k, g i i) * g k k, cm n n (fun i j => if j = k ∧ i < k then 0 else if j < k ∧ i < j then 0 else g i j)), ?_, ?_, ?_⟩
      · dsimp only
        rw [rd_cm _ hk hk, bind_ok, if_neg (by omega), zeroCol _ hk, bind_ok]; rfl
      · dsimp only; rw [prod_range_succ]
      · dsimp only
        apply cm_congr
        intro i _ j _
        by_cases e : j = k ∧ i < k
        · rw [if_pos e, if_pos (by omega)]
        · rw [if_neg e]
          by_cases e' : j < k ∧ i < j
          · rw [if_pos e', if_pos (by omega)]
          · rw [if_neg e', if_neg (by omega)])
  refine ⟨s.2, ?_, by rw [h3]; simp, ?_⟩
  · rw [h1]
    have : s.1 = ∏ i : Fin n, mtx n n A i i := by rw [h2, Finset.prod_range]; rfl
    rw [← this]
  · rw [h3, mtx_cm]
    funext i j
    simp only [low]
    by_cases e : j ≤ i
    · rw [if_neg (by have : j.1 ≤ i.1 := e; omega), if_pos e]; rfl
    · rw [if_pos ⟨j.2, by have : ¬ j.1 ≤ i.1 := e; omega⟩, if_neg e]

theorem low_low {n : Nat} (M : Matrix (Fin n) (Fin n) K) : low (low M) = low M := by
  funext i j; simp only [low]; split <;> rfl

/-- C88: putting mean and covariance on a base density gives a density with a lower triangular matrix `M` with `M Mᵀ` the covariance (given by
its lower triangle), the mean as offset and the determinant of `M`. -/
theorem mvnOn_ok {potrf : Nat → List K → List K} {n : Nat} {base : Dens K} {mean cov : List K} (hc : CholAt potrf n cov)
    (hd : base.dim = n) (hl : base.lb.length = n) (hu : base.ub.length = n) (hm : mean.length = n) (hcl : cov.length = n * n) :
    ∃ p M, mvnOn potrf base n mean cov = .ok p ∧ DensOk n p M (vct n mean) M.det ∧ M * Mᵀ = symL (mtx n n cov) ∧
      p.f = base.f ∧ p.g = base.g ∧ p.h = base.h ∧ p.lb = base.lb ∧ p.ub = base.ub ∧
      (∃ lt, p.lt = some lt ∧ mtx n n lt.A = M ∧ lt.b = mean) := by
  obtain ⟨c1, c2, c3⟩ := hc
  obtain ⟨A', e1, e2, e3⟩ := detLoop_ok c1
  have hdet : (low (mtx n n (potrf n cov))).det = ∏ i : Fin n, mtx n n (potrf n cov) i i := low_det _
  have hne : (low (mtx n n (potrf n cov))).det ≠ 0 := by
    rw [hdet]; exact prod_ne_zero_iff.2 fun i _ => c3 i
  refine ⟨{ base with transform := 1, lt := some ⟨A', mean, some (∏ i : Fin n, mtx n n (potrf n cov) i i), none, none, n, n, some .LT, none⟩ },
    low (mtx n n (potrf n cov)), ?_, ?_, c2, rfl, rfl, rfl, rfl, rfl, ⟨_, rfl, e3, rfl⟩⟩
  · unfold mvnOn mvnLt
    rw [ltAlloc, blkOpt, pure_eq_ok, bind_ok, blkOpt, pure_eq_ok, bind_ok, pure_eq_ok, bind_ok]
    dsimp only
    rw [copyLoop_ok hm (by simp), bind_ok, copyLoop_ok hcl (by simp), bind_ok, e1, bind_ok]
    rfl
  · refine ⟨hd, hl, hu, rfl, ⟨_, rfl, ⟨rfl, rfl, e2, hm, rfl, by rw [hdet], hne, ?_⟩, e3, rfl, Or.inl rfl⟩, low_low _⟩
    intro i
    dsimp only
    rw [e3]
    simp only [low, le_refl, if_true]
    exact c3 i

/-- C88: the square of the determinant is the determinant of the covariance, and the squared length of the point of the base density is the
quadratic form of the inverse covariance. So if the base density is `c exp(-|t|²/2)`, the density is the normal one. -/
theorem mvn_quadratic {n : Nat} {M S : Matrix (Fin n) (Fin n) K} (hS : M * Mᵀ = S) (μ x : Fin n → K) :
    M.det ^ 2 = S.det ∧ back M μ x ⬝ᵥ back M μ x = (x - μ) ⬝ᵥ (S⁻¹ *ᵥ (x - μ)) := by
  constructor
  · rw [← hS, det_mul, det_transpose, sq]
  · rw [← hS, Matrix.mul_inv_rev, back, ← mulVec_mulVec, dotProduct_mulVec (x - μ), ← transpose_nonsing_inv, vecMul_transpose]

/-- C88: a sample is `M z + μ`, whatever standard normal numbers `z` are drawn. -/
theorem densSample_ok {n : Nat} {p : Dens K} {M : Matrix (Fin n) (Fin n) K} {μ : Fin n → K} {δ : K} (h : DensOk n p M μ δ) {z : List K}
    (hz : z.length = n) : densSample p z = .ok (List.ofFn (M *ᵥ vct n z + μ)) := by
  obtain ⟨lt, h1, h2, h3, h4, _⟩ := h.lt
  unfold densSample
  rw [h1, ptr, pure_eq_ok, bind_ok, h.dim, ltApply_ok h2.lA hz h2.lb, h3, h4]

/-- C88: the point of the base density that belongs to a sample is the drawn point. -/
theorem back_sample {n : Nat} {M : Matrix (Fin n) (Fin n) K} (hd : M.det ≠ 0) (μ z : Fin n → K) : back M μ (M *ᵥ z + μ) = z := by
  rw [back, add_sub_cancel_right, mulVec_mulVec, nonsing_inv_mul _ (isUnit_iff_ne_zero.2 hd), one_mulVec]

/-- C88: in any dimension but zero the standard normal density cannot be built: the options are allocated with NULL pointers, the options for
the variables are never stored in them, and the first one is dereferenced. -/
theorem stdNormal_counterexample {α : Type} (n : Nat) (build : List α → Dens K) : stdNormal (n + 1) build = .error .null := by
  have : rankoneOpts (n + 1) (List.replicate (n + 1) (none : Option α)) = .error .null := by
    rw [rankoneOpts]
    exact C3.Opt.forN_first_error (by omega) (by simp [rd, ptr, List.replicate_succ])
  rw [stdNormal, this]; rfl

/-- C88: hence neither can a normal density with given mean and covariance. -/
theorem mvn_counterexample {α : Type} (potrf : Nat → List K → List K) (n : Nat) (build : List α → Dens K) (mean cov : List K) :
    mvn potrf build (n + 1) mean cov = .error .null := by
  rw [mvn, stdNormal_counterexample]; rfl

/-- C88: sampling from a Gaussian density without a transform dereferences NULL. -/
theorem sample_counterexample {p : Dens K} (h : p.lt = none) (z : List K) : densSample p z = .error .null := by
  rw [densSample, h]; rfl

/-- The contract `CholAt` can be met: the factor of the covariance `[4 2; 2 17]`, whose strict upper triangle LAPACK leaves alone. -/
example : CholAt (fun _ _ => [2, 1, 2, 4]) 2 ([4, 2, 2, 17] : List ℚ) := by
  refine ⟨rfl, ?_, ?_⟩
  · funext i j; fin_cases i <;> fin_cases j <;> simp [mtx, low, symL, Matrix.mul_apply] <;> norm_num
  · intro i; fin_cases i <;> simp [mtx]

end C3.Prob

/-
C88: the transformed density has the mass of the base density; mean and covariance of samples.
-/
import Verif.Prob.DensProps
import Mathlib.MeasureTheory.Measure.Lebesgue.Basic
import Mathlib.MeasureTheory.Integral.Bochner.Basic
import Mathlib.MeasureTheory.Integral.Bochner.Set
import Mathlib.MeasureTheory.Group.Integral
import Mathlib.Topology.Algebra.Module.FiniteDimension

namespace C3.Prob

open Finset Matrix MeasureTheory

/-- The density as a function on vectors (zero where the evaluation fails, which it never does). -/
noncomputable def evalR (trtri : Nat → List ℝ → List ℝ) (p : Dens ℝ) {n : Nat} (v : Fin n → ℝ) : ℝ :=
  match densEval trtri p (List.ofFn v) with
  | .ok r => r.1
  | .error _ => 0

variable {trtri : Nat → List ℝ → List ℝ} {n : Nat} {p : Dens ℝ} {M : Matrix (Fin n) (Fin n) ℝ} {μ : Fin n → ℝ} {δ : ℝ}

theorem evalR_eq (ht : TriInv trtri) (h : DensOk n p M μ δ) (v : Fin n → ℝ) :
    evalR trtri p v = if Within (vct n p.lb) (vct n p.ub) (back M μ v) then p.f (List.ofFn (back M μ v)) * |1 / δ| else 0 := by
  obtain ⟨p', h1, _⟩ := densEval_ok ht h (x := List.ofFn v) (by simp)
  rw [evalR, h1, vct_ofFn]

theorem DensOk.det_ne (h : DensOk n p M μ δ) : M.det ≠ 0 := by
  obtain ⟨lt, _, h2, h3, _⟩ := h.lt
  rw [← h.low, low_det]
  exact prod_ne_zero_iff.2 fun i _ => by rw [← h3]; exact h2.diag i

/-- Integration of a function of `M⁻¹(x - μ)`. -/
theorem integral_back (hM : M.det ≠ 0) (μ : Fin n → ℝ) (G : (Fin n → ℝ) → ℝ) : ∫ v, G (back M μ v) = |M.det| * ∫ t, G t := by
  have hMi : (M⁻¹).det ≠ 0 := by
    rw [det_nonsing_inv]; simpa using hM
  have h1 : ∫ v, G (back M μ v) = ∫ v, G (M⁻¹ *ᵥ v) := integral_sub_right_eq_self (fun v => G (M⁻¹ *ᵥ v)) μ
  have h2 := Real.map_matrix_volume_pi_eq_smul_volume_pi hMi
  let e : (Fin n → ℝ) ≃L[ℝ] (Fin n → ℝ) := (Matrix.toLinearEquiv' M⁻¹ ((isUnit_iff_isUnit_det _).2 (isUnit_iff_ne_zero.2 hMi)).invertible).toContinuousLinearEquiv
  have he : ∀ v, e v = M⁻¹ *ᵥ v := fun v => rfl
  have h3 : MeasurableEmbedding (fun v => M⁻¹ *ᵥ v : (Fin n → ℝ) → (Fin n → ℝ)) := e.toHomeomorph.measurableEmbedding
  have h4 := h3.integral_map (μ := volume) G
  have h5 : Measure.map (fun v => M⁻¹ *ᵥ v) (volume : Measure (Fin n → ℝ)) = Measure.map (toLin' M⁻¹) volume := rfl
  rw [h1, ← h4, h5, h2, integral_smul_measure, det_nonsing_inv, Ring.inverse_eq_inv', inv_inv, ENNReal.toReal_ofReal (abs_nonneg _),
    smul_eq_mul]

/-- C88: the mass of the transformed density is that of the base density inside its bounds, times the quotient of the determinant of the matrix
and the number in the determinant field; it is the same if that field is right. -/
theorem dens_mass (ht : TriInv trtri) (h : DensOk n p M μ δ) :
    ∫ v : Fin n → ℝ, evalR trtri p v = |M.det / δ| * ∫ t in Set.Icc (vct n p.lb) (vct n p.ub), p.f (List.ofFn t) := by
  have e : ∀ v : Fin n → ℝ, evalR trtri p v =
      (fun t => Set.indicator (Set.Icc (vct n p.lb) (vct n p.ub)) (fun t => p.f (List.ofFn t)) t * |1 / δ|) (back M μ v) := by
    intro v
    rw [evalR_eq ht h]
    dsimp only
    have : Within (vct n p.lb) (vct n p.ub) (back M μ v) ↔ back M μ v ∈ Set.Icc (vct n p.lb) (vct n p.ub) := by
      rw [Set.mem_Icc, Pi.le_def, Pi.le_def]
      exact forall_and
    by_cases c : Within (vct n p.lb) (vct n p.ub) (back M μ v)
    · rw [if_pos c, Set.indicator_of_mem (this.1 c)]
    · rw [if_neg c, Set.indicator_of_notMem (fun hm => c (this.2 hm)), zero_mul]
  rw [integral_congr_ae (Filter.Eventually.of_forall e), integral_back h.det_ne μ
    (fun t => (Set.Icc (vct n p.lb) (vct n p.ub)).indicator (fun t => p.f (List.ofFn t)) t * |1 / δ|), integral_mul_const, integral_indicator measurableSet_Icc, abs_div, abs_div, abs_one]
  ring

/-- C88: in particular the mass is preserved for a density made from mean and covariance. -/
theorem mvn_mass (ht : TriInv trtri) (h : DensOk n p M μ M.det) :
    ∫ v : Fin n → ℝ, evalR trtri p v = ∫ t in Set.Icc (vct n p.lb) (vct n p.ub), p.f (List.ofFn t) := by
  rw [dens_mass ht h, div_self h.det_ne, abs_one, one_mul]

/-- C88: if the drawn numbers are centred, samples have the mean of the density; if they also are uncorrelated with unit variance, samples have
covariance `M Mᵀ`. -/
theorem sample_moments {Ω : Type} [MeasurableSpace Ω] {P : Measure Ω} [IsProbabilityMeasure P] (h : DensOk n p M μ δ)
    {z s : Ω → Fin n → ℝ} (hs : ∀ ω, densSample p (List.ofFn (z ω)) = .ok (List.ofFn (s ω)))
    (hi : ∀ i, Integrable (fun ω => z ω i) P) (h0 : ∀ i, ∫ ω, z ω i ∂P = 0)
    (hij : ∀ i j, Integrable (fun ω => z ω i * z ω j) P) (h1 : ∀ i j, ∫ ω, z ω i * z ω j ∂P = if i = j then 1 else 0) :
    (∀ i, ∫ ω, s ω i ∂P = μ i) ∧ ∀ i j, ∫ ω, (s ω i - μ i) * (s ω j - μ j) ∂P = (M * Mᵀ) i j := by
  have e : ∀ ω, s ω = M *ᵥ z ω + μ := by
    intro ω
    have := hs ω
    rw [densSample_ok h (by simp), vct_ofFn] at this
    injection this with this
    exact (List.ofFn_inj.1 this).symm
  constructor
  · intro i
    have : ∀ ω, s ω i = (∑ k, M i k * z ω k) + μ i := fun ω => by rw [e]; rfl
    simp_rw [this]
    rw [integral_add (integrable_finsetSum _ fun k _ => (hi k).const_mul _) (integrable_const _), integral_finsetSum _
      (fun k _ => (hi k).const_mul _)]
    simp [integral_const_mul, h0]
  · intro i j
    have : ∀ ω, (s ω i - μ i) * (s ω j - μ j) = ∑ k, ∑ l, M i k * M j l * (z ω k * z ω l) := by
      intro ω
      have e1 : s ω i - μ i = ∑ k, M i k * z ω k := by rw [e]; simp [mulVec, dotProduct]
      have e2 : s ω j - μ j = ∑ k, M j k * z ω k := by rw [e]; simp [mulVec, dotProduct]
      rw [e1, e2, sum_mul_sum]
      apply sum_congr rfl; intro k _
      apply sum_congr rfl; intro l _
      ring
    simp_rw [this]
    rw [integral_finsetSum _ (fun k _ => integrable_finsetSum _ fun l _ => (hij k l).const_mul _)]
    rw [mul_apply]
    apply sum_congr rfl
    intro k _
    rw [integral_finsetSum _ (fun l _ => (hij k l).const_mul _)]
    simp [integral_const_mul, h1]

/-- A base density on `[0,1]²` with the transform `(s, t) ↦ (2s + 1, s + 4t + 3)`. -/
def exDens : Dens ℝ :=
  ⟨2, [0, 0], [1, 1], fun _ => 1, fun _ => [0, 0], fun _ => [0, 0, 0, 0],
    some ⟨[2, 1, 0, 4], [1, 3], some 8, none, none, 2, 2, some .LT, none⟩, 1⟩

/-- The hypotheses of `densEval_ok`, `dens_mass` and `densSample_ok` can be met. -/
theorem exDens_ok : DensOk 2 exDens (mtx 2 2 [2, 1, 0, 4]) (vct 2 [1, 3]) 8 := by
  refine ⟨rfl, rfl, rfl, rfl, ⟨_, rfl, ⟨rfl, rfl, rfl, rfl, rfl, rfl, by norm_num, ?_⟩, rfl, rfl, Or.inl rfl⟩, ?_⟩
  · intro i; fin_cases i <;> simp [mtx]
  · funext i j; fin_cases i <;> fin_cases j <;> simp [mtx, low]

example : DensOk 2 exDens (mtx 2 2 [2, 1, 0, 4]) (vct 2 [1, 3]) 8 ∧ TriInv (triRef (K := ℝ)) := ⟨exDens_ok, triInv_triRef⟩

end C3.Prob

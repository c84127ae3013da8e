/- Householder reflections in a real inner product space: what a sweep with the recorded relations yields. -/
import Mathlib.Analysis.InnerProductSpace.Basic
import Mathlib.Tactic.Module
import Mathlib.Tactic.LinearCombination

set_option linter.unusedSectionVars false

namespace C3.Qr
open Finset
variable {X : Type} [NormedAddCommGroup X] [InnerProductSpace ℝ X]

local notation "⟪" x ", " y "⟫" => inner ℝ x y

/-- Reflection at the hyperplane orthogonal to `v`. -/
noncomputable def refl (v x : X) : X := x - (2 * ⟪v, x⟫) • v

theorem refl_add (v x y : X) : refl v (x + y) = refl v x + refl v y := by
  unfold refl; rw [inner_add_right]; module

theorem refl_smul (v : X) (c : ℝ) (x : X) : refl v (c • x) = c • refl v x := by
  unfold refl; rw [real_inner_smul_right]; module

theorem refl_inner {v : X} (hv : ‖v‖ = 1) (x y : X) : ⟪refl v x, refl v y⟫ = ⟪x, y⟫ := by
  have h : ⟪v, v⟫ = (1 : ℝ) := by rw [real_inner_self_eq_norm_sq, hv]; norm_num
  unfold refl
  simp only [inner_sub_left, inner_sub_right, real_inner_smul_left, real_inner_smul_right, h]
  rw [real_inner_comm v x]
  ring

theorem refl_refl {v : X} (hv : ‖v‖ = 1) (x : X) : refl v (refl v x) = x := by
  have h : ⟪v, v⟫ = (1 : ℝ) := by rw [real_inner_self_eq_norm_sq, hv]; norm_num
  unfold refl
  simp only [inner_sub_right, real_inner_smul_right, h]
  module

theorem refl_norm {v : X} (hv : ‖v‖ = 1) (x : X) : ‖refl v x‖ = ‖x‖ := by
  rw [← sq_eq_sq₀ (norm_nonneg _) (norm_nonneg _), ← real_inner_self_eq_norm_sq, ← real_inner_self_eq_norm_sq, refl_inner hv]

theorem refl_of_orth {v x : X} (h : ⟪v, x⟫ = (0 : ℝ)) : refl v x = x := by unfold refl; rw [h]; simp

/-- `U v k = refl (v 0) ∘ ... ∘ refl (v (k-1))`. -/
noncomputable def U (v : Nat → X) : Nat → X → X
  | 0, x => x
  | k + 1, x => U v k (refl (v k) x)

theorem U_add (v : Nat → X) (k : Nat) (x y : X) : U v k (x + y) = U v k x + U v k y := by
  induction k generalizing x y with
  | zero => rfl
  | succ k ih => rw [U, refl_add, ih]; rfl

theorem U_smul (v : Nat → X) (k : Nat) (c : ℝ) (x : X) : U v k (c • x) = c • U v k x := by
  induction k generalizing x with
  | zero => rfl
  | succ k ih => rw [U, refl_smul, ih]; rfl

theorem U_inner {v : Nat → X} {k : Nat} (hv : ∀ i < k, ‖v i‖ = 1) (x y : X) : ⟪U v k x, U v k y⟫ = ⟪x, y⟫ := by
  induction k generalizing x y with
  | zero => rfl
  | succ k ih => rw [U, U, ih (fun i hi => hv i (by omega)), refl_inner (hv k (by omega))]

theorem U_norm {v : Nat → X} {k : Nat} (hv : ∀ i < k, ‖v i‖ = 1) (x : X) : ‖U v k x‖ = ‖x‖ := by
  rw [← sq_eq_sq₀ (norm_nonneg _) (norm_nonneg _), ← real_inner_self_eq_norm_sq, ← real_inner_self_eq_norm_sq, U_inner hv]

/-- The relations a Householder sweep over `n` vectors establishes: `A i j` is vector `j` before step `i`, `e i` the `i`-th starting
vector with its final sign, `v i` the reflectors, `t i j` the coefficients used to reflect, `R j i` the factor; `τ` bounds the error of `t`, `δ i`
that of the diagonal. -/
structure Run (n : Nat) (τ : ℝ) (δ : Nat → ℝ) (A : Nat → Nat → X) (e v : Nat → X) (t R : Nat → Nat → ℝ) : Prop where
  orth : ∀ i < n, ∀ j < n, ⟪e i, e j⟫ = if i = j then (1 : ℝ) else 0
  unit : ∀ i < n, ‖v i‖ = 1
  span : ∀ i < n, ∃ a b : ℝ, v i = a • e i + b • A i i
  coef : ∀ i j, i < j → j < n → |t i j - ⟪v i, A i j⟫| ≤ τ
  row : ∀ i j, i < j → j < n → R j i = ⟪e i, A i j - (2 * t i j) • v i⟫
  step : ∀ i j, i < j → j < n → A (i + 1) j = A i j - (2 * t i j) • v i - R j i • e i
  diag : ∀ i < n, ‖refl (v i) (A i i) - R i i • e i‖ ≤ δ i

variable {n : Nat} {τ : ℝ} {δ : Nat → ℝ} {A : Nat → Nat → X} {e v : Nat → X} {t R : Nat → Nat → ℝ}

theorem Run.A_orth (h : Run n τ δ A e v t R) : ∀ i j, i ≤ j → j < n → ∀ k < i, ⟪e k, A i j⟫ = (0 : ℝ) := by
  intro i
  induction i with
  | zero => intro j _ _ k hk; omega
  | succ i ih =>
    intro j hij hj k hk
    rw [h.step i j (by omega) hj]
    by_cases hki : k = i
    · subst hki
      rw [inner_sub_right, real_inner_smul_right, h.orth k (by omega) k (by omega), if_pos rfl, h.row k j (by omega) hj]; ring
    · have h1 : ⟪e k, v i⟫ = (0 : ℝ) := by
        obtain ⟨a, b, e1⟩ := h.span i (by omega)
        rw [e1, inner_add_right, real_inner_smul_right, real_inner_smul_right, h.orth k (by omega) i (by omega), if_neg hki,
          ih i (le_refl _) (by omega) k (by omega)]; ring
      rw [inner_sub_right, inner_sub_right, real_inner_smul_right, real_inner_smul_right, ih j (by omega) hj k (by omega), h1,
        h.orth k (by omega) i (by omega), if_neg hki]; ring

theorem Run.v_orth (h : Run n τ δ A e v t R) {i k : Nat} (hi : i < n) (hk : k < i) : ⟪v i, e k⟫ = (0 : ℝ) := by
  obtain ⟨a, b, e1⟩ := h.span i hi
  rw [real_inner_comm, e1, inner_add_right, real_inner_smul_right, real_inner_smul_right, h.orth k (by omega) i (by omega), if_neg (by omega),
    h.A_orth i i (le_refl _) hi k hk]; ring

/-- The orthonormal factor. -/
noncomputable def qvec (e v : Nat → X) (j : Nat) : X := U v (j + 1) (e j)

theorem Run.qvec_eq (h : Run n τ δ A e v t R) {j k : Nat} (hjk : j < k) (hk : k ≤ n) : U v k (e j) = qvec e v j := by
  induction k with
  | zero => omega
  | succ k ih =>
    by_cases hj : j = k
    · subst hj; rfl
    · rw [U, refl_of_orth (h.v_orth (by omega) (by omega)), ih (by omega) (by omega)]

theorem Run.qvec_orth (h : Run n τ δ A e v t R) {i j : Nat} (hi : i < n) (hj : j < n) :
    ⟪qvec e v i, qvec e v j⟫ = if i = j then (1 : ℝ) else 0 := by
  rw [← h.qvec_eq hi le_rfl, ← h.qvec_eq hj le_rfl, U_inner h.unit, h.orth i hi j hj]

theorem Run.partial (h : Run n τ δ A e v t R) {j : Nat} (hj : j < n) : ∀ i, i ≤ j →
    ‖A 0 j - ∑ k ∈ range i, R j k • qvec e v k - U v i (A i j)‖ ≤ i * (2 * τ) := by
  intro i
  induction i with
  | zero => intro _; simp [U]
  | succ i ih =>
    intro hi
    have hu : ∀ k < i + 1, ‖v k‖ = 1 := fun k hk => h.unit k (by omega)
    have h1 : U v i (A i j) = U v (i + 1) (A (i + 1) j) + R j i • qvec e v i + (2 * (t i j - ⟪v i, A i j⟫)) • U v (i + 1) (v i) := by
      have : refl (v i) (A i j) = A (i + 1) j + R j i • e i + (2 * (t i j - ⟪v i, A i j⟫)) • v i := by
        rw [h.step i j (by omega) hj]; unfold refl; module
      rw [qvec, ← U_smul, ← U_smul, ← U_add, ← U_add, ← this, U, refl_refl (h.unit i (by omega))]
    have h2 := ih (by omega)
    have h3 : A 0 j - ∑ k ∈ range (i + 1), R j k • qvec e v k - U v (i + 1) (A (i + 1) j) =
        (A 0 j - ∑ k ∈ range i, R j k • qvec e v k - U v i (A i j)) + (2 * (t i j - ⟪v i, A i j⟫)) • U v (i + 1) (v i) := by
      rw [h1, sum_range_succ]; module
    rw [h3]
    refine (norm_add_le _ _).trans ?_
    have h4 : ‖(2 * (t i j - ⟪v i, A i j⟫)) • U v (i + 1) (v i)‖ ≤ 2 * τ := by
      rw [norm_smul, U_norm hu, h.unit i (by omega), mul_one, Real.norm_eq_abs, abs_mul, abs_two]
      have := h.coef i j (by omega) hj
      linarith
    push_cast
    linarith

/-- Column `j` of `A` is the combination of the orthonormal vectors given by the factor, up to the threshold errors. -/
theorem Run.factor (h : Run n τ δ A e v t R) {j : Nat} (hj : j < n) :
    ‖A 0 j - ∑ k ∈ range (j + 1), R j k • qvec e v k‖ ≤ j * (2 * τ) + δ j := by
  have hu : ∀ k < j + 1, ‖v k‖ = 1 := fun k hk => h.unit k (by omega)
  have h1 := h.partial hj j (le_refl _)
  have h2 : A 0 j - ∑ k ∈ range (j + 1), R j k • qvec e v k =
      (A 0 j - ∑ k ∈ range j, R j k • qvec e v k - U v j (A j j)) + U v (j + 1) (refl (v j) (A j j) + (-R j j) • e j) := by
    have h3 : U v j (A j j) = U v (j + 1) (refl (v j) (A j j)) := by rw [U, refl_refl (h.unit j hj)]
    rw [U_add, U_smul, ← h3, sum_range_succ, qvec]; module
  rw [h2]
  refine (norm_add_le _ _).trans (add_le_add h1 ?_)
  rw [U_norm hu, neg_smul, ← sub_eq_add_neg]
  exact h.diag j hj

/-- The reflector built from `‖x‖ e - x` takes `x` to `‖x‖ e`. -/
theorem refl_house {e x : X} (he : ‖e‖ = 1) {σ : ℝ} (hσ : σ = ‖‖x‖ • e - x‖) (h0 : σ ≠ 0) :
    ‖(1 / σ) • (‖x‖ • e - x)‖ = 1 ∧ refl ((1 / σ) • (‖x‖ • e - x)) x = ‖x‖ • e := by
  have hp : 0 < σ := lt_of_le_of_ne (by rw [hσ]; exact norm_nonneg _) (Ne.symm h0)
  refine ⟨by rw [norm_smul, ← hσ, Real.norm_eq_abs, abs_of_pos (by positivity)]; field_simp, ?_⟩
  have h1 : σ ^ 2 = -(2 * ⟪‖x‖ • e - x, x⟫) := by
    rw [hσ, ← real_inner_self_eq_norm_sq]
    simp only [inner_sub_left, inner_sub_right, real_inner_smul_left, real_inner_smul_right, real_inner_self_eq_norm_sq, norm_smul, norm_norm, he]
    rw [real_inner_comm e x]; ring
  unfold refl
  rw [real_inner_smul_left, smul_smul]
  have h2 : 2 * (1 / σ * ⟪‖x‖ • e - x, x⟫) * (1 / σ) = -1 := by
    field_simp
    linarith
  rw [h2]; module

/-- When `‖x‖ e - x` is small, so is `x`, provided `e` and `x` do not form an acute angle (up to `a`). -/
theorem house_small {e x : X} (he : ‖e‖ = 1) {ρ a : ℝ} (ha : ⟪e, x⟫ ≤ a) : ρ ≤ a + ‖ρ • e - x‖ := by
  have hee : ⟪e, e⟫ = (1 : ℝ) := by rw [real_inner_self_eq_norm_sq, he]; norm_num
  have h1 : ⟪e, ρ • e - x⟫ = ρ - ⟪e, x⟫ := by rw [inner_sub_right, real_inner_smul_right, hee, mul_one]
  have h2 := real_inner_le_norm e (ρ • e - x)
  rw [he, one_mul, h1] at h2
  linarith

end C3.Qr

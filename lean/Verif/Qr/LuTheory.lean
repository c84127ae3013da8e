/- What the relations recorded by a cross LU sweep yield. -/
import Mathlib.LinearAlgebra.Matrix.Block
import Mathlib.Algebra.Order.Field.Basic
import Mathlib.Tactic.LinearCombination
import Mathlib.Tactic.FieldSimp

set_option linter.unusedSectionVars false

namespace C3.Qr.Lu
open Finset
variable {K : Type} [Field K] {P : Type}

/-- `A k j` is column `j` before step `k`; `L k` the columns of the left factor; `p k` the pivots; `u j k` the right factor; `reg k` says that
step `k` divided by its pivot. -/
structure LRun (n : Nat) (A : Nat → Nat → P → K) (L : Nat → P → K) (p : Nat → P) (u : Nat → Nat → K) (reg : Nat → Prop) : Prop where
  step : ∀ k < n, ∀ j < n, ∀ x, A (k + 1) j x = A k j x - u j k * L k x
  row : ∀ k < n, ∀ j < n, j ≠ k → u j k = A k j (p k)
  rcol : ∀ k < n, reg k → u k k ≠ 0 ∧ u k k = A k k (p k) ∧ ∀ x, L k x = (u k k)⁻¹ * A k k x

variable {n : Nat} {A : Nat → Nat → P → K} {L : Nat → P → K} {p : Nat → P} {u : Nat → Nat → K} {reg : Nat → Prop}

theorem LRun.partial (h : LRun n A L p u reg) {j : Nat} (hj : j < n) (x : P) : ∀ k ≤ n, A 0 j x = ∑ i ∈ range k, u j i * L i x + A k j x := by
  intro k
  induction k with
  | zero => intro _; simp
  | succ k ih =>
    intro hk
    rw [ih (by omega), sum_range_succ, h.step k (by omega) j hj]; ring

/-- The factors and the remainder. -/
theorem LRun.factor (h : LRun n A L p u reg) {j : Nat} (hj : j < n) (x : P) : A 0 j x = ∑ i ∈ range n, u j i * L i x + A n j x :=
  h.partial hj x n le_rfl

theorem LRun.zero_after (h : LRun n A L p u reg) {j : Nat} (hj : j < n) (hr : reg j) : ∀ k, j < k → k ≤ n → ∀ x, A k j x = 0 := by
  obtain ⟨h0, -, h2⟩ := h.rcol j hj hr
  intro k
  induction k with
  | zero => intro h; omega
  | succ k ih =>
    intro hjk hk x
    by_cases hjk' : j = k
    · subst hjk'
      rw [h.step j hj j hj, h2]
      field_simp
      ring
    · have h3 := ih (by omega) (by omega)
      rw [h.step k (by omega) j hj, h.row k (by omega) j hj hjk', h3, h3]; ring

/-- A column whose pivot was divided by: the right factor vanishes below the diagonal and nothing is left. -/
theorem LRun.upper (h : LRun n A L p u reg) {j : Nat} (hj : j < n) (hr : reg j) : ∀ k, j < k → k < n → u j k = 0 := fun k hjk hk => by
  rw [h.row k hk j hj (by omega), h.zero_after hj hr k hjk hk.le]

theorem LRun.exact (h : LRun n A L p u reg) {j : Nat} (hj : j < n) (hr : reg j) (x : P) : A 0 j x = ∑ i ∈ range n, u j i * L i x := by
  rw [h.factor hj x, h.zero_after hj hr n hj le_rfl, add_zero]

theorem LRun.one (h : LRun n A L p u reg) {k : Nat} (hk : k < n) (hr : reg k) : L k (p k) = 1 := by
  obtain ⟨h0, h1, h2⟩ := h.rcol k hk hr
  rw [h2, ← h1]; exact inv_mul_cancel₀ h0

theorem LRun.pivots (h : LRun n A L p u reg) (hone : ∀ k < n, L k (p k) = 1) (hz : ∀ k < n, ¬ reg k → ∀ i < k, L k (p i) = 0) :
    ∀ k ≤ n, ∀ i < k, (∀ j, i < j → j < n → A k j (p i) = 0) ∧ ∀ l, i < l → l < k → L l (p i) = 0 := by
  intro k
  induction k with
  | zero => intro _ i hi; omega
  | succ k ih =>
    intro hk i hi
    by_cases hik : i = k
    · subst hik
      refine ⟨fun j hj1 hj2 => ?_, fun l h1 h2 => by omega⟩
      rw [h.step i (by omega) j hj2, h.row i (by omega) j hj2 (by omega), hone i (by omega)]; ring
    · obtain ⟨h1, h2⟩ := ih (by omega) i (by omega)
      have hL : L k (p i) = 0 := by
        by_cases hr : reg k
        · obtain ⟨-, -, h3⟩ := h.rcol k (by omega) hr
          rw [h3, h1 k (by omega) (by omega), mul_zero]
        · exact hz k (by omega) hr i (by omega)
      refine ⟨fun j hj1 hj2 => ?_, fun l h3 h4 => ?_⟩
      · rw [h.step k (by omega) j hj2, h1 j hj1 hj2, hL]; ring
      · by_cases hl : l = k
        · rw [hl, hL]
        · exact h2 l h3 (by omega)

/-- At the pivots the left factor is unit lower triangular. -/
theorem LRun.lower (h : LRun n A L p u reg) (hone : ∀ k < n, L k (p k) = 1) (hz : ∀ k < n, ¬ reg k → ∀ i < k, L k (p i) = 0) {i k : Nat}
    (hik : i < k) (hk : k < n) : L k (p i) = 0 := (h.pivots hone hz (k + 1) hk i (by omega)).2 k hik (by omega)

/-- The matrix of the columns at the pivots is nonsingular. -/
theorem LRun.det (h : LRun n A L p u reg) (hr : ∀ k < n, reg k) :
    (Matrix.of fun i j : Fin n => A 0 j (p i)).det = ∏ k ∈ range n, u k k := by
  have h1 : (Matrix.of fun i j : Fin n => A 0 j (p i)) = (Matrix.of fun i k : Fin n => L k (p i)) * Matrix.of fun k j : Fin n => u j k := by
    ext i j
    rw [Matrix.mul_apply, Matrix.of_apply, h.exact j.2 (hr j j.2), Finset.sum_range]
    exact sum_congr rfl fun k _ => mul_comm _ _
  have hone : ∀ k < n, L k (p k) = 1 := fun k hk => h.one hk (hr k hk)
  rw [h1, Matrix.det_mul, Matrix.det_of_lowerTriangular, Matrix.det_of_upperTriangular, Finset.prod_range]
  · simp only [Matrix.of_apply]
    rw [show ∏ i : Fin n, L i (p i) = 1 from prod_eq_one fun i _ => hone i i.2, one_mul]
  · intro k j hkj
    exact h.upper j.2 (hr j j.2) k hkj k.2
  · intro i k hik
    exact h.lower hone (fun k hk hn => absurd (hr k hk) hn) (i := i) (k := k) hik k.2

end C3.Qr.Lu

/-
The RQ factorisation used by tt_round: contract, existence, and the triangular products.
-/
import Verif.Tt.SvdModel
import Verif.Tt.SvdErr
import Mathlib.Analysis.InnerProductSpace.GramSchmidtOrtho
import Mathlib.Analysis.InnerProductSpace.PiL2

set_option linter.unusedSectionVars false

namespace C3.Tt
open Finset C3.Ft C3.Round

/-- A factorisation `A = R q` of an `m × n` matrix, `m ≤ n`, in column-major storage: `q` has orthonormal rows and `R` is the
upper triangle of the last `m` columns of `f`. -/
structure RqGood (m n : Nat) (A : List ℝ) (w : Rq) : Prop where
  lf : w.f.length = m * n
  lq : w.q.length = m * n
  prod : ∀ i < m, ∀ j < n, ent m A i j = ∑ t ∈ Ico i m, w.f.getD ((n - m + t) * m + i) 0 * ent m w.q t j
  on : ∀ t < m, ∀ t' < m, ∑ j ∈ range n, ent m w.q t j * ent m w.q t' j = if t = t' then 1 else 0

/-- Contract of the RQ factorisation (LAPACK `dgerqf`, `dorgrq`); matrices with more rows than columns are not covered. -/
def RqLaw (rq : Nat → Nat → List ℝ → C Rq) : Prop :=
  ∀ m n A, 0 < m → m ≤ n → A.length = m * n → ∃ w, rq m n A = .ok w ∧ RqGood m n A w

theorem exists_rqGood {m n : Nat} (hmn : m ≤ n) (A : List ℝ) : ∃ w, RqGood m n A w := by
  let row : Nat → EuclideanSpace ℝ (Fin n) := fun i => WithLp.toLp 2 (fun j : Fin n => ent m A i j)
  let f : Fin n → EuclideanSpace ℝ (Fin n) := fun k => row (m - 1 - k)
  have hc : Module.finrank ℝ (EuclideanSpace ℝ (Fin n)) = Fintype.card (Fin n) := by simp
  let b := InnerProductSpace.gramSchmidtOrthonormalBasis hc f
  -- row `t` of the orthogonal factor is basis vector `m - 1 - t`
  let ix : ∀ t, t < m → Fin n := fun t ht => ⟨m - 1 - t, by omega⟩
  let q : Nat → Nat → ℝ := fun t j => if h : t < m ∧ j < n then (b (ix t h.1)).ofLp ⟨j, h.2⟩ else 0
  let R : Nat → Nat → ℝ := fun i t => if h : t < m then inner ℝ (b (ix t h)) (row i) else 0
  have hq : ∀ t (ht : t < m) j (hj : j < n), q t j = (b (ix t ht)).ofLp ⟨j, hj⟩ := fun t ht j hj => dif_pos ⟨ht, hj⟩
  have hR : ∀ i t (ht : t < m), R i t = inner ℝ (b (ix t ht)) (row i) := fun i t ht => dif_pos ht
  have hentq : ∀ t < m, ∀ j < n, ent m (cm m n q) t j = q t j := fun t ht j hj => getD_cm q 0 ht hj
  refine ⟨⟨cm m n (fun i j => R i (j - (n - m))), cm m n q⟩, by simp, by simp, ?_, ?_⟩
  · intro i hi j hj
    have h1 : row i = ∑ k, inner ℝ (b k) (row i) • b k := (b.sum_repr' (row i)).symm
    have hfi : f (ix i hi) = row i := by
      show row (m - 1 - (m - 1 - i)) = row i
      congr 1; omega
    have h0 : ∀ k : Fin n, m - 1 - i < k.1 → inner ℝ (b k) (row i) = 0 := by
      intro k hk
      rw [← hfi]
      exact InnerProductSpace.gramSchmidtOrthonormalBasis_inv_triangular hc f (i := ix i hi) (j := k) hk
    have h2 : ent m A i j = ∑ k : Fin n, inner ℝ (b k) (row i) * (b k).ofLp ⟨j, hj⟩ := by
      have := congrArg (fun v : EuclideanSpace ℝ (Fin n) => v.ofLp ⟨j, hj⟩) h1
      simp only [WithLp.ofLp_sum, Finset.sum_apply, WithLp.ofLp_smul, Pi.smul_apply, smul_eq_mul] at this
      exact this
    rw [h2]
    symm
    have h3 : ∀ t ∈ Ico i m, (cm m n (fun i j => R i (j - (n - m)))).getD ((n - m + t) * m + i) 0 * ent m (cm m n q) t j
        = (if h : t < m then inner ℝ (b (ix t h)) (row i) * (b (ix t h)).ofLp ⟨j, hj⟩ else 0) := by
      intro t ht
      have ht' := (mem_Ico.1 ht).2
      rw [getD_cm _ _ hi (show n - m + t < n by omega), hentq t ht' j hj, hq t ht' j hj, dif_pos ht']
      dsimp only
      rw [show n - m + t - (n - m) = t by omega, hR i t ht']
    rw [sum_congr rfl h3]
    refine sum_bij_ne_zero (fun t ht hne => if h : t < m then ix t h else ⟨0, by omega⟩) (fun _ _ _ => mem_univ _) ?_ ?_ ?_
    · intro t ht hne t' ht' hne' he
      have a1 := (mem_Ico.1 ht).2
      have a2 := (mem_Ico.1 ht').2
      rw [dif_pos a1, dif_pos a2] at he
      have := congrArg Fin.val he
      change m - 1 - t = m - 1 - t' at this
      omega
    · intro k _ hne
      have hk : k.1 ≤ m - 1 - i := by
        by_contra hk
        rw [h0 k (by omega), zero_mul] at hne
        exact hne rfl
      have hlt : m - 1 - k.1 < m := by omega
      have hik : ix (m - 1 - k.1) hlt = k := by
        apply Fin.ext
        show m - 1 - (m - 1 - k.1) = k.1
        omega
      refine ⟨m - 1 - k.1, mem_Ico.2 ⟨by omega, hlt⟩, ?_, ?_⟩
      · rw [dif_pos hlt, hik]; exact hne
      · rw [dif_pos hlt, hik]
    · intro t ht hne
      have a1 := (mem_Ico.1 ht).2
      rw [dif_pos a1, dif_pos a1]
  · intro t ht t' ht'
    have h1 : ∀ j ∈ range n, ent m (cm m n q) t j * ent m (cm m n q) t' j
        = (if h : j < n then (b (ix t ht)).ofLp ⟨j, h⟩ * (b (ix t' ht')).ofLp ⟨j, h⟩ else 0) := by
      intro j hj
      have hj := mem_range.1 hj
      rw [hentq t ht j hj, hentq t' ht' j hj, hq t ht j hj, hq t' ht' j hj, dif_pos hj]
    rw [sum_congr rfl h1, sum_range]
    have h2 := orthonormal_iff_ite.1 b.orthonormal (ix t' ht') (ix t ht)
    rw [PiLp.inner_apply] at h2
    have h3 : (∑ i : Fin n, if h : (i : Nat) < n then (b (ix t ht)).ofLp ⟨i, h⟩ * (b (ix t' ht')).ofLp ⟨i, h⟩ else 0)
        = ∑ i : Fin n, inner ℝ ((b (ix t' ht')).ofLp i) ((b (ix t ht)).ofLp i) := by
      refine sum_congr rfl fun i _ => ?_
      rw [dif_pos i.2]
      simp
    rw [h3, h2]
    by_cases h : t = t'
    · subst h; simp
    · rw [if_neg h, if_neg]
      intro he
      have := congrArg Fin.val he
      change m - 1 - t' = m - 1 - t at this
      omega

open Classical in
/-- Some routine that meets the contract. -/
noncomputable def rqAny (m n : Nat) (A : List ℝ) : C Rq := if h : m ≤ n then .ok (exists_rqGood h A).choose else .error .exit

theorem rqAny_law : RqLaw rqAny := fun m n A _ h _ => ⟨_, dif_pos h, (exists_rqGood h A).choose_spec⟩

/-- `B := B A` with the upper triangle of `A`. -/
theorem trmmR_ok {m n ao lda : Nat} {A B : List ℝ} (hB : B.length = m * n) (hA : ∀ t j, t ≤ j → j < n → ao + (j * lda + t) < A.length) :
    trmmR m n A ao lda B = .ok (cm m n (fun i j => ∑ t ∈ range (j + 1), B.getD (t * m + i) 0 * A.getD (ao + (j * lda + t)) 0)) := by
  rw [trmmR]
  refine forN_fill_cm _ hB ?_
  intro j hj i hi b hb
  rw [forN_sum (fun t => B.getD (t * m + i) 0 * A.getD (ao + (j * lda + t)) 0) (fun t ht s => by
    rw [rd_getD 0 (by rw [hB]; exact cm_idx_lt hi (by omega)), bind_ok, rd_getD 0 (hA t j (by omega) hj), bind_ok, pure_eq_ok]), bind_ok,
    zero_add]

/-- `B := A B` with the upper triangle of `A`. -/
theorem trmmL_ok {m n lda : Nat} {A B : List ℝ} (hB : B.length = m * n) (hA : ∀ i t, i ≤ t → t < m → t * lda + i < A.length) :
    trmmL m n A lda B = .ok (cm m n (fun i j => ∑ t ∈ Ico i m, A.getD (t * lda + i) 0 * B.getD (j * m + t) 0)) := by
  rw [trmmL]
  refine forN_fill_cm _ hB ?_
  intro j hj i hi b hb
  rw [forN_sum (fun t => A.getD ((i + t) * lda + i) 0 * B.getD (j * m + (i + t)) 0) (fun t ht s => by
    rw [rd_getD 0 (hA i (i + t) (by omega) (by omega)), bind_ok, rd_getD 0 (by rw [hB]; exact cm_idx_lt (show i + t < m by omega) hj),
      bind_ok, pure_eq_ok]), bind_ok, zero_add, sum_Ico_eq_sum_range]

end C3.Tt

/- Gram-Schmidt QR and LQ: abort on a dependent vector, or an exact factorization (C30). -/
import Verif.Qr.Gs

set_option linter.unusedSectionVars false

namespace C3.Qr
open Finset
variable {E : Type} [NormedAddCommGroup E] [InnerProductSpace ℝ E]

section
variable {thr : ℝ} {pos rpos : Nat → Nat → Nat} {m len N M : Nat}

theorem gs_run (ht : 0 ≤ thr) (hL : Lay pos m len N) (hLR : Lay rpos m m M) {A : List E} {R : List ℝ} (hA : A.length = N) (hR : R.length = M) :
    ∀ n ≤ m, (forN n (gsStep thr pos rpos m len) (A, R) = .error .assertFail ∧ ∃ j < n, Dependent thr pos len A j) ∨
      ∃ s, forN n (gsStep thr pos rpos m len) (A, R) = .ok s ∧ GInv thr pos rpos m len N M A R n s := by
  intro n
  induction n with
  | zero =>
    intro _
    refine Or.inr ⟨(A, R), rfl, hA, hR, fun i hi => by omega, fun k hk => by omega, fun j hj => by omega, fun j _ _ => ?_, fun j hj => by omega,
      fun _ _ _ _ _ => rfl⟩
    rw [range_zero, sum_empty, add_zero]
  | succ n ih =>
    intro hn
    rw [forN_succ]
    rcases ih (by omega) with ⟨e, j, hj, hd⟩ | ⟨s, e, h⟩
    · exact Or.inl ⟨by rw [e]; rfl, j, by omega, hd⟩
    · rw [e]
      by_cases hc : thr < ‖vw len s.1 (pos n)‖
      · exact Or.inr (gsStep_ok ht hL hLR (by omega) h hc)
      · refine Or.inl ⟨gsStep_abort hL hLR (by omega) h (not_lt.1 hc), n, by omega, ?_⟩
        rw [dependent_iff ht]
        have h1 : vw len A (pos n) - vw len s.1 (pos n) ∈ Submodule.span ℝ ((fun l => vw len A (pos l)) '' Set.Iio n) := by
          rw [h.hi n le_rfl (by omega), add_sub_cancel_left]
          exact Submodule.sum_mem _ fun k hk => Submodule.smul_mem _ _ (h.span ht k (mem_range.1 hk))
        obtain ⟨c, hc'⟩ := span_coef h1
        refine ⟨c, ?_⟩
        rw [← hc', sub_sub_cancel]
        exact not_lt.1 hc

theorem gs_spec (ht : 0 ≤ thr) (hL : Lay pos m len N) (hLR : Lay rpos m m M) {A : List E} {R : List ℝ} (hA : A.length = N) (hR : R.length = M)
    (hR0 : Triangular rpos m R) :
    (gs thr pos rpos m len A R = .error .assertFail ∧ ∃ j < m, Dependent thr pos len A j) ∨
    ((∀ j < m, ¬ Dependent thr pos len A j) ∧ ∃ Q R', gs thr pos rpos m len A R = .ok (Q, R') ∧ Q.length = N ∧ R'.length = M ∧
      Orthonormal pos m len Q ∧ Triangular rpos m R' ∧ (∀ j < m, thr < R'.getD (rpos j j) 0) ∧
      ∀ j < m, ∀ i < len, A.getD (pos j i) 0 = prodEntry pos rpos m Q R' j i) := by
  rcases gs_run ht hL hLR hA hR m le_rfl with h | ⟨s, e, h⟩
  · exact Or.inl h
  · refine Or.inr ⟨fun j hj => h.indep ht hj, s.1, s.2, e, h.lenA, h.lenR, orth_iff.2 h.orth, ?_, h.diag, fun j hj => ?_⟩
    · intro j hj k hk hjk
      rw [h.keep j hj k hk hjk]; exact hR0 j hj k hk hjk
    · apply exact_of_distSq
      have htri : Triangular rpos m s.2 := fun j hj k hk hjk => by rw [h.keep j hj k hk hjk]; exact hR0 j hj k hk hjk
      rw [distSq_eq, tri_sum htri hj (fun k => vw len s.1 (pos k)), ← h.lo j hj, sub_self, norm_zero]
      norm_num

end

/-- C30: Gram-Schmidt QR: the call aborts exactly when some column is within `thr` of a combination of the columns before it; otherwise the
array becomes orthonormal columns `Q`, `R` is upper triangular with diagonal entries above `thr`, and `A = Q R` exactly. -/
theorem qmarray_qr_gs_spec {thr : ℝ} (ht : 0 ≤ thr) {nrows ncols : Nat} {A : List E} {R : List ℝ} (hA : A.length = nrows * ncols)
    (hR : R.length = ncols * ncols) (hR0 : Triangular (fun k i => k * ncols + i) ncols R) :
    (qmarrayQrGs thr nrows ncols A R = .error .assertFail ∧ ∃ j < ncols, Dependent thr (fun v i => v * nrows + i) nrows A j) ∨
    ((∀ j < ncols, ¬ Dependent thr (fun v i => v * nrows + i) nrows A j) ∧ ∃ Q R', qmarrayQrGs thr nrows ncols A R = .ok (Q, R') ∧
      Q.length = nrows * ncols ∧ R'.length = ncols * ncols ∧
      Orthonormal (fun v i => v * nrows + i) ncols nrows Q ∧ Triangular (fun k i => k * ncols + i) ncols R' ∧
      (∀ j < ncols, thr < R'.getD (j * ncols + j) 0) ∧
      ∀ j < ncols, ∀ i < nrows, A.getD (j * nrows + i) 0 = ∑ k ∈ range ncols, R'.getD (j * ncols + k) 0 • Q.getD (k * nrows + i) 0) :=
  gs_spec ht (Lay.cols nrows ncols) (Lay.cols ncols ncols) hA hR hR0

/-- C30: Gram-Schmidt LQ, by rows. -/
theorem qmarray_lq_gs_spec {thr : ℝ} (ht : 0 ≤ thr) {nrows ncols : Nat} {A : List E} {L : List ℝ} (hA : A.length = nrows * ncols)
    (hL : L.length = nrows * nrows) (hL0 : Triangular (fun k i => i * nrows + k) nrows L) :
    (qmarrayLqGs thr nrows ncols A L = .error .assertFail ∧ ∃ j < nrows, Dependent thr (fun v i => i * nrows + v) ncols A j) ∨
    ((∀ j < nrows, ¬ Dependent thr (fun v i => i * nrows + v) ncols A j) ∧ ∃ Q L', qmarrayLqGs thr nrows ncols A L = .ok (Q, L') ∧
      Q.length = nrows * ncols ∧ L'.length = nrows * nrows ∧
      Orthonormal (fun v i => i * nrows + v) nrows ncols Q ∧ Triangular (fun k i => i * nrows + k) nrows L' ∧
      (∀ j < nrows, thr < L'.getD (j * nrows + j) 0) ∧
      ∀ j < nrows, ∀ i < ncols, A.getD (i * nrows + j) 0 = ∑ k ∈ range nrows, L'.getD (k * nrows + j) 0 • Q.getD (i * nrows + k) 0) :=
  gs_spec ht (Lay.rows nrows ncols) (Lay.rows nrows nrows) hA hL hL0

/-- The first alternative occurs: a zero column. -/
example : qmarrayQrGs (E := ℝ) (1 / 100) 2 1 [0, 0] [0] = .error .assertFail := by
  rcases qmarray_qr_gs_spec (E := ℝ) (thr := 1 / 100) (by norm_num) (nrows := 2) (ncols := 1) (A := [0, 0]) (R := [0]) rfl rfl
    (by intro j hj k hk hjk; omega) with h | ⟨h, -⟩
  · exact h.1
  · exact absurd ⟨fun _ => 0, by simp [sum_range_succ]⟩ (h 0 (by omega))

/-- The second alternative occurs. -/
example : ∃ Q R', qmarrayQrGs (E := ℝ) (1 / 100) 2 1 [3, 4] [0] = .ok (Q, R') ∧ Orthonormal (fun v i => v * 2 + i) 1 2 Q := by
  rcases qmarray_qr_gs_spec (E := ℝ) (thr := 1 / 100) (by norm_num) (nrows := 2) (ncols := 1) (A := [3, 4]) (R := [0]) rfl rfl
    (by intro j hj k hk hjk; omega) with ⟨-, j, hj, c, h⟩ | ⟨-, Q, R', e, -, -, h, -⟩
  · obtain rfl : j = 0 := by omega
    norm_num [sum_range_succ] at h
  · exact ⟨Q, R', e, h⟩

example : ∃ Q L', qmarrayLqGs (E := ℝ) (1 / 100) 1 2 [3, 4] [0] = .ok (Q, L') ∧ Orthonormal (fun v i => i * 1 + v) 1 2 Q := by
  rcases qmarray_lq_gs_spec (E := ℝ) (thr := 1 / 100) (by norm_num) (nrows := 1) (ncols := 2) (A := [3, 4]) (L := [0]) rfl rfl
    (by intro j hj k hk hjk; omega) with ⟨-, j, hj, c, h⟩ | ⟨-, Q, R', e, -, -, h, -⟩
  · obtain rfl : j = 0 := by omega
    norm_num [sum_range_succ] at h
  · exact ⟨Q, R', e, h⟩

end C3.Qr

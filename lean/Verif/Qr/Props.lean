/- QR and LQ factorizations of arrays of functions by Householder reflections (C29, C72). -/
import Verif.Qr.HhStep
import Verif.Qr.Spec

set_option linter.unusedSectionVars false

namespace C3.Qr
open Finset
variable {E : Type} [NormedAddCommGroup E] [InnerProductSpace ℝ E]

section
variable {thr τ : ℝ} {pos rpos : Nat → Nat → Nat} {m len N M : Nat}

theorem orth_iff {Q : List E} : Orthonormal pos m len Q ↔
    ∀ i < m, ∀ j < m, inner ℝ (vw len Q (pos i)) (vw len Q (pos j)) = if i = j then (1 : ℝ) else 0 := by
  have h : ∀ i j, inner ℝ (vw len Q (pos i)) (vw len Q (pos j)) = ∑ l ∈ range len, inner ℝ (Q.getD (pos i l) 0) (Q.getD (pos j l) 0) := by
    intro i j; rw [PiLp.inner_apply, Finset.sum_range]; rfl
  simp only [h]; rfl

theorem distSq_eq {A Q : List E} {R : List ℝ} {j : Nat} : distSq pos rpos m len A Q R j =
    ‖vw len A (pos j) - ∑ k ∈ range m, R.getD (rpos j k) 0 • vw len Q (pos k)‖ ^ 2 := by
  rw [← real_inner_self_eq_norm_sq, PiLp.inner_apply, distSq, Finset.sum_range]
  refine sum_congr rfl fun i _ => ?_
  rw [real_inner_self_eq_norm_sq]
  congr 2
  rw [PiLp.sub_apply, prodEntry, WithLp.ofLp_sum, Finset.sum_apply]
  rfl

theorem distSq_nonneg {A Q : List E} {R : List ℝ} {j : Nat} : 0 ≤ distSq pos rpos m len A Q R j :=
  sum_nonneg fun _ _ => sq_nonneg _

theorem tri_sum {X : Type} [AddCommGroup X] [Module ℝ X] {R : List ℝ} (hR : Triangular rpos m R) {j : Nat} (hj : j < m) (q : Nat → X) :
    ∑ k ∈ range m, R.getD (rpos j k) 0 • q k = ∑ k ∈ range (j + 1), R.getD (rpos j k) 0 • q k := by
  symm
  refine sum_subset (by intro k; simp only [mem_range]; omega) fun k hk hk' => ?_
  simp only [mem_range] at hk hk'
  rw [hR j hj k hk (by omega), zero_smul]

/-- What a chain of steps followed by the forming of `Q` gives. -/
theorem chain_factor (hL : Lay pos m len N) {t : Nat → HS E} (hτ : 0 ≤ τ) (ht : 0 ≤ thr) (hS : ∀ i < m, StepRel thr τ pos rpos m len i (t i) (t (i + 1)))
    (hSh : Shape N M (t m)) (hP : Pre pos m len m (t m)) (hR0 : Triangular rpos m (t 0).R) :
    ∃ Q', formQ pos m len (t m).V (t m).Q = .ok Q' ∧ Q'.length = N ∧ Orthonormal pos m len Q' ∧ Triangular rpos m (t m).R ∧
      (∀ j < m, 0 ≤ (t m).R.getD (rpos j j) 0) ∧
      (∀ j < m, distSq pos rpos m len (t 0).A Q' (t m).R j ≤ (j * (2 * τ) + 4 * thr) ^ 2) ∧
      ∀ j < m, 2 * thr ≤ (t m).R.getD (rpos j j) 0 → distSq pos rpos m len (t 0).A Q' (t m).R j ≤ (j * (2 * τ)) ^ 2 := by
  obtain ⟨c, hr⟩ := run_of_chain hS hP
  obtain ⟨Q', e, l, h⟩ := formQ_ok hL hSh.V hSh.Q
  have htri : ∀ i ≤ m, Triangular rpos m (t i).R := by
    intro i
    induction i with
    | zero => intro _; exact hR0
    | succ i ih =>
      intro hi j hj k hk hjk
      rw [(hS i hi).Rk j hj k hk (by omega)]
      exact ih (by omega) j hj k hk hjk
  have hnn : ∀ j < m, 0 ≤ (t m).R.getD (rpos j j) 0 := by
    intro j hj
    have hd : ∀ d, j + 1 + d ≤ m → 0 ≤ (t (j + 1 + d)).R.getD (rpos j j) 0 := by
      intro d
      induction d with
      | zero => intro _; exact (hS j hj).nonneg
      | succ d ih =>
        intro hd
        rw [show j + 1 + (d + 1) = j + 1 + d + 1 by omega, (hS (j + 1 + d) (by omega)).Rk j hj j hj (Or.inl (by omega))]
        exact ih (by omega)
    have := hd (m - (j + 1)) (by omega)
    rwa [show j + 1 + (m - (j + 1)) = m by omega] at this
  have hf : ∀ j < m, distSq pos rpos m len (t 0).A Q' (t m).R j ≤
      (j * (2 * τ) + if (t m).R.getD (rpos j j) 0 < 2 * thr then 4 * thr else 0) ^ 2 := by
    intro j hj
    rw [distSq_eq, tri_sum (htri m le_rfl) hj (fun k => vw len Q' (pos k)), sum_congr rfl fun k hk => by
      rw [h k (by have := mem_range.1 hk; omega)]]
    have := hr.factor hj
    exact pow_le_pow_left₀ (norm_nonneg _) this 2
  refine ⟨Q', e, l, ?_, htri m le_rfl, hnn, fun j hj => ?_, fun j hj h2 => ?_⟩
  · rw [orth_iff]
    intro i hi j hj
    rw [h i hi, h j hj]
    exact hr.qvec_orth hi hj
  · refine (hf j hj).trans (pow_le_pow_left₀ ?_ ?_ 2)
    · split <;> positivity
    · split <;> linarith
  · have := hf j hj
    rwa [if_neg (not_lt.2 h2), add_zero] at this

theorem hqr_spec (ht : 0 < thr) (hL : Lay pos m len N) (hN : m * len = N) (hLR : Lay rpos m m M) {A Q : List E} {R : List ℝ} (hA : A.length = N)
    (hQ : Q.length = N) (hR : R.length = M) (hR0 : Triangular rpos m R) (ho : Orthonormal pos m len Q) :
    ∃ Q' R', hqr thr pos rpos m len A Q R = .ok (Q', R') ∧ Q'.length = N ∧ R'.length = M ∧ Orthonormal pos m len Q' ∧ Triangular rpos m R' ∧
      (∀ j < m, 0 ≤ R'.getD (rpos j j) 0) ∧ (∀ j < m, distSq pos rpos m len A Q' R' j ≤ (4 * thr) ^ 2) ∧
      ∀ j < m, 2 * thr ≤ R'.getD (rpos j j) 0 → distSq pos rpos m len A Q' R' j = 0 := by
  obtain ⟨t, t0, e, hI, hS⟩ := forN_chain (n := m) (body := hqrStep thr pos rpos m len) (s := ⟨A, Q, List.replicate (m * len) 0, R⟩)
    (fun i s => Shape N M s ∧ Pre pos m len i s) (fun i s s' => StepRel thr 0 pos rpos m len i s s')
    ⟨⟨hA, hQ, by rw [List.length_replicate, hN], hR⟩, orth_iff.1 ho, fun k hk => by omega⟩
    (fun i hi s ⟨h1, h2⟩ => by
      obtain ⟨s', e, k1, k2⟩ := hqrStep_ok hL ht hLR hi h1 h2
      exact ⟨s', e, ⟨k1, k2.pre hi h2⟩, k2⟩)
  obtain ⟨Q', e', l, h1, h2, h3, h4, h5⟩ := chain_factor (N := N) (M := M) (τ := 0) hL le_rfl ht.le hS (hI m le_rfl).1 (hI m le_rfl).2 (by rw [t0]; exact hR0)
  refine ⟨Q', (t m).R, by rw [hqr, e, bind_ok, e', bind_ok]; rfl, l, (hI m le_rfl).1.R, h1, h2, h3, fun j hj => ?_, fun j hj hd => ?_⟩
  · have := h4 j hj; rwa [t0, mul_zero, mul_zero, zero_add] at this
  · have := h5 j hj hd
    rw [t0, mul_zero, mul_zero, zero_pow two_ne_zero] at this
    exact le_antisymm this distSq_nonneg

theorem householder_spec (ht : 0 ≤ thr) (hL : Lay pos m len N) (hN : m * len = N) (hLR : Lay rpos m m M) {A Q : List E} {R : List ℝ}
    (hA : A.length = N) (hQ : Q.length = N) (hR : R.length = M) (hR0 : Triangular rpos m R) (ho : Orthonormal pos m len Q) :
    ∃ Q' R', householder thr pos rpos m len A Q R = .ok (Q', R') ∧ Q'.length = N ∧ R'.length = M ∧ Orthonormal pos m len Q' ∧ Triangular rpos m R' ∧
      (∀ j < m, 0 ≤ R'.getD (rpos j j) 0) ∧ ∀ j < m, distSq pos rpos m len A Q' R' j ≤ ((2 * j + 4) * thr) ^ 2 := by
  obtain ⟨t, t0, e, hI, hS⟩ := forN_chain (n := m) (body := hhStep thr pos rpos m len) (s := ⟨A, Q, List.replicate (m * len) 0, R⟩)
    (fun i s => Shape N M s ∧ Pre pos m len i s) (fun i s s' => StepRel thr thr pos rpos m len i s s')
    ⟨⟨hA, hQ, by rw [List.length_replicate, hN], hR⟩, orth_iff.1 ho, fun k hk => by omega⟩
    (fun i hi s ⟨h1, h2⟩ => by
      obtain ⟨s', e, k1, k2⟩ := hhStep_ok hL ht hLR hi h1 h2
      exact ⟨s', e, ⟨k1, k2.pre hi h2⟩, k2⟩)
  obtain ⟨Q', e', l, h1, h2, h3, h4, -⟩ := chain_factor (N := N) (M := M) (τ := thr) hL ht ht hS (hI m le_rfl).1 (hI m le_rfl).2 (by rw [t0]; exact hR0)
  refine ⟨Q', (t m).R, by rw [householder, e, bind_ok, e', bind_ok]; rfl, l, (hI m le_rfl).1.R, h1, h2, h3, fun j hj => ?_⟩
  have := h4 j hj
  rw [t0] at this
  calc _ ≤ _ := this
    _ = _ := by ring

theorem exact_of_distSq {A Q : List E} {R : List ℝ} {j : Nat} (h : distSq pos rpos m len A Q R j ≤ 0) :
    ∀ i < len, A.getD (pos j i) 0 = prodEntry pos rpos m Q R j i := by
  have h0 : distSq pos rpos m len A Q R j = 0 := le_antisymm h distSq_nonneg
  rw [distSq, sum_eq_zero_iff_of_nonneg (fun i _ => by positivity)] at h0
  intro i hi
  have := h0 i (mem_range.2 hi)
  rw [sq_eq_zero_iff, norm_eq_zero, sub_eq_zero] at this
  exact this

end

/-! ### The entry points -/

/-- C72: QR factorization of an array of functions by columns: for every array and every orthonormal set of starting columns the call
succeeds; the columns of `Q` are orthonormal, `R` is upper triangular with nonnegative diagonal, every column of `A` is within `4 thr` of the
product, and equals it exactly when its diagonal entry is at least `2 thr`. -/
theorem qmarray_qr_spec {thr : ℝ} (ht : 0 < thr) {nrows ncols : Nat} {A Q : List E} {R : List ℝ} (hA : A.length = nrows * ncols)
    (hQ : Q.length = nrows * ncols) (hR : R.length = ncols * ncols) (hR0 : Triangular (fun k i => k * ncols + i) ncols R)
    (ho : Orthonormal (fun v i => v * nrows + i) ncols nrows Q) :
    ∃ Q' R', qmarrayQr thr nrows ncols A Q R = .ok (Q', R') ∧ Q'.length = nrows * ncols ∧ R'.length = ncols * ncols ∧
      Orthonormal (fun v i => v * nrows + i) ncols nrows Q' ∧ Triangular (fun k i => k * ncols + i) ncols R' ∧
      (∀ j < ncols, 0 ≤ R'.getD (j * ncols + j) 0) ∧
      (∀ j < ncols, distSq (fun v i => v * nrows + i) (fun k i => k * ncols + i) ncols nrows A Q' R' j ≤ (4 * thr) ^ 2) ∧
      ∀ j < ncols, 2 * thr ≤ R'.getD (j * ncols + j) 0 →
        ∀ i < nrows, A.getD (j * nrows + i) 0 = ∑ k ∈ range ncols, R'.getD (j * ncols + k) 0 • Q'.getD (k * nrows + i) 0 := by
  obtain ⟨Q', R', e, h1, h2, h3, h4, h5, h6, h7⟩ := hqr_spec ht (Lay.cols nrows ncols) (Nat.mul_comm _ _) (Lay.cols ncols ncols) hA hQ hR hR0 ho
  exact ⟨Q', R', e, h1, h2, h3, h4, h5, h6, fun j hj hd => exact_of_distSq (h7 j hj hd).le⟩

/-- C72: LQ factorization of an array of functions by rows. -/
theorem qmarray_lq_spec {thr : ℝ} (ht : 0 < thr) {nrows ncols : Nat} {A Q : List E} {L : List ℝ} (hA : A.length = nrows * ncols)
    (hQ : Q.length = nrows * ncols) (hL : L.length = nrows * nrows) (hL0 : Triangular (fun k i => i * nrows + k) nrows L)
    (ho : Orthonormal (fun v i => i * nrows + v) nrows ncols Q) :
    ∃ Q' L', qmarrayLq thr nrows ncols A Q L = .ok (Q', L') ∧ Q'.length = nrows * ncols ∧ L'.length = nrows * nrows ∧
      Orthonormal (fun v i => i * nrows + v) nrows ncols Q' ∧ Triangular (fun k i => i * nrows + k) nrows L' ∧
      (∀ j < nrows, 0 ≤ L'.getD (j * nrows + j) 0) ∧
      (∀ j < nrows, distSq (fun v i => i * nrows + v) (fun k i => i * nrows + k) nrows ncols A Q' L' j ≤ (4 * thr) ^ 2) ∧
      ∀ j < nrows, 2 * thr ≤ L'.getD (j * nrows + j) 0 →
        ∀ i < ncols, A.getD (i * nrows + j) 0 = ∑ k ∈ range nrows, L'.getD (k * nrows + j) 0 • Q'.getD (i * nrows + k) 0 := by
  obtain ⟨Q', R', e, h1, h2, h3, h4, h5, h6, h7⟩ := hqr_spec ht (Lay.rows nrows ncols) rfl (Lay.rows nrows nrows) hA hQ hL hL0 ho
  exact ⟨Q', R', e, h1, h2, h3, h4, h5, h6, fun j hj hd => exact_of_distSq (h7 j hj hd).le⟩

/-- C72: the Householder sweep used for piecewise polynomials, by columns. -/
theorem qmarray_householder_spec {thr : ℝ} (ht : 0 ≤ thr) {nrows ncols : Nat} {A Q : List E} {R : List ℝ} (hA : A.length = nrows * ncols)
    (hQ : Q.length = nrows * ncols) (hR : R.length = ncols * ncols) (hR0 : Triangular (fun k i => k * ncols + i) ncols R)
    (ho : Orthonormal (fun v i => v * nrows + i) ncols nrows Q) :
    ∃ Q' R', qmarrayHouseholder thr nrows ncols A Q R = .ok (Q', R') ∧ Q'.length = nrows * ncols ∧ R'.length = ncols * ncols ∧
      Orthonormal (fun v i => v * nrows + i) ncols nrows Q' ∧ Triangular (fun k i => k * ncols + i) ncols R' ∧
      (∀ j < ncols, 0 ≤ R'.getD (j * ncols + j) 0) ∧
      (∀ j < ncols, distSq (fun v i => v * nrows + i) (fun k i => k * ncols + i) ncols nrows A Q' R' j ≤ ((2 * j + 4) * thr) ^ 2) ∧
      (thr = 0 → ∀ j < ncols, ∀ i < nrows, A.getD (j * nrows + i) 0 = ∑ k ∈ range ncols, R'.getD (j * ncols + k) 0 • Q'.getD (k * nrows + i) 0) := by
  obtain ⟨Q', R', e, h1, h2, h3, h4, h5, h6⟩ := householder_spec ht (Lay.cols nrows ncols) (Nat.mul_comm _ _) (Lay.cols ncols ncols) hA hQ hR hR0 ho
  exact ⟨Q', R', e, h1, h2, h3, h4, h5, h6, fun hz j hj => exact_of_distSq (by have := h6 j hj; rw [hz] at this; simpa using this)⟩

/-- C72: the Householder sweep used for piecewise polynomials, by rows. -/
theorem qmarray_householder_rows_spec {thr : ℝ} (ht : 0 ≤ thr) {nrows ncols : Nat} {A Q : List E} {L : List ℝ} (hA : A.length = nrows * ncols)
    (hQ : Q.length = nrows * ncols) (hL : L.length = nrows * nrows) (hL0 : Triangular (fun k i => i * nrows + k) nrows L)
    (ho : Orthonormal (fun v i => i * nrows + v) nrows ncols Q) :
    ∃ Q' L', qmarrayHouseholderRows thr nrows ncols A Q L = .ok (Q', L') ∧ Q'.length = nrows * ncols ∧ L'.length = nrows * nrows ∧
      Orthonormal (fun v i => i * nrows + v) nrows ncols Q' ∧ Triangular (fun k i => i * nrows + k) nrows L' ∧
      (∀ j < nrows, 0 ≤ L'.getD (j * nrows + j) 0) ∧
      (∀ j < nrows, distSq (fun v i => i * nrows + v) (fun k i => i * nrows + k) nrows ncols A Q' L' j ≤ ((2 * j + 4) * thr) ^ 2) ∧
      (thr = 0 → ∀ j < nrows, ∀ i < ncols, A.getD (i * nrows + j) 0 = ∑ k ∈ range nrows, L'.getD (k * nrows + j) 0 • Q'.getD (i * nrows + k) 0) := by
  obtain ⟨Q', R', e, h1, h2, h3, h4, h5, h6⟩ := householder_spec ht (Lay.rows nrows ncols) rfl (Lay.rows nrows nrows) hA hQ hL hL0 ho
  exact ⟨Q', R', e, h1, h2, h3, h4, h5, h6, fun hz j hj => exact_of_distSq (by have := h6 j hj; rw [hz] at this; simpa using this)⟩

/-- C29: QR factorization of a quasimatrix: for every list of functions and every orthonormal list of starting functions the call succeeds,
the functions of `Q` are orthonormal, `R` is upper triangular, and function `j` is within `(2j+4) thr` of `Σ_k R_kj Q_k`; with threshold 0 the
factorization is exact. -/
theorem quasimatrix_qr_spec {thr : ℝ} (ht : 0 ≤ thr) {n : Nat} {A Q : List E} {R : List ℝ} (hA : A.length = n) (hQ : Q.length = n)
    (hR : R.length = n * n) (hR0 : ∀ j < n, ∀ k < n, j < k → R.getD (j * n + k) 0 = 0)
    (ho : ∀ v < n, ∀ w < n, inner ℝ (Q.getD v 0) (Q.getD w 0) = if v = w then (1 : ℝ) else 0) :
    ∃ Q' R', quasimatrixQr thr n A Q R = .ok (Q', R') ∧ Q'.length = n ∧ R'.length = n * n ∧
      (∀ v < n, ∀ w < n, inner ℝ (Q'.getD v 0) (Q'.getD w 0) = if v = w then (1 : ℝ) else 0) ∧
      (∀ j < n, ∀ k < n, j < k → R'.getD (j * n + k) 0 = 0) ∧ (∀ j < n, 0 ≤ R'.getD (j * n + j) 0) ∧
      (∀ j < n, ‖A.getD j 0 - ∑ k ∈ range n, R'.getD (j * n + k) 0 • Q'.getD k 0‖ ≤ (2 * j + 4) * thr) ∧
      (thr = 0 → ∀ j < n, A.getD j 0 = ∑ k ∈ range n, R'.getD (j * n + k) 0 • Q'.getD k 0) := by
  have ho1 : ∀ Q : List E, Orthonormal sp n 1 Q ↔ ∀ v < n, ∀ w < n, inner ℝ (Q.getD v 0) (Q.getD w 0) = if v = w then (1 : ℝ) else 0 := by
    intro Q; unfold Orthonormal; simp [sp]
  obtain ⟨t, t0, e, hI, hS⟩ := forN_chain (n := n) (body := qmStep thr n) (s := ⟨A, Q, List.replicate n 0, R⟩)
    (fun i s => Shape n (n * n) s ∧ Pre sp n 1 i s) (fun i s s' => StepRel thr thr sp (fun k i => k * n + i) n 1 i s s')
    ⟨⟨hA, hQ, by rw [List.length_replicate], hR⟩, orth_iff.1 ((ho1 Q).2 ho), fun k hk => by omega⟩
    (fun i hi s ⟨h1, h2⟩ => by
      obtain ⟨s', e, k1, k2⟩ := qmStep_ok ht hi h1 h2
      exact ⟨s', e, ⟨k1, k2.pre hi h2⟩, k2⟩)
  obtain ⟨Q', e', l, h1, h2, h3, h4, -⟩ := chain_factor (N := n) (M := n * n) (τ := thr) (Lay.single n) ht ht hS (hI n le_rfl).1 (hI n le_rfl).2
    (by rw [t0]; exact hR0)
  have h6 : ∀ j < n, ‖A.getD j 0 - ∑ k ∈ range n, (t n).R.getD (j * n + k) 0 • Q'.getD k 0‖ ≤ (2 * j + 4) * thr := by
    intro j hj
    have := h4 j hj
    rw [t0, distSq, sum_range_one, prodEntry] at this
    have h7 := abs_le_of_sq_le_sq this (by positivity)
    have h8 : ‖A.getD j 0 - ∑ k ∈ range n, (t n).R.getD (j * n + k) 0 • Q'.getD k 0‖ ≤ j * (2 * thr) + 4 * thr := (le_abs_self _).trans h7
    linarith
  refine ⟨Q', (t n).R, by rw [quasimatrixQr, e, bind_ok]; erw [e']; rw [bind_ok]; rfl, l, (hI n le_rfl).1.R, (ho1 Q').1 h1, h2, h3, h6, fun hz j hj => ?_⟩
  have := h6 j hj
  rw [hz, mul_zero] at this
  exact sub_eq_zero.1 (norm_le_zero_iff.1 this)

/-! ### Cases that meet the hypotheses -/

example : ∃ Q' R', qmarrayQr (E := ℝ) (1 / 100) 2 2 [3, 4, 1, 2] [1, 0, 0, 1] [0, 0, 0, 0] = .ok (Q', R') ∧
    Orthonormal (fun v i => v * 2 + i) 2 2 Q' := by
  obtain ⟨Q', R', e, -, -, h, -⟩ := qmarray_qr_spec (E := ℝ) (thr := 1 / 100) (by norm_num) (nrows := 2) (ncols := 2) (A := [3, 4, 1, 2])
    (Q := [1, 0, 0, 1]) (R := [0, 0, 0, 0]) rfl rfl rfl
    (by intro j hj k hk hjk; interval_cases j <;> interval_cases k <;> simp_all)
    (by intro v hv w hw; interval_cases v <;> interval_cases w <;> simp [sum_range_succ])
  exact ⟨Q', R', e, h⟩

example : ∃ Q' L', qmarrayLq (E := ℝ) (1 / 100) 2 2 [3, 4, 1, 2] [1, 0, 0, 1] [0, 0, 0, 0] = .ok (Q', L') ∧
    Orthonormal (fun v i => i * 2 + v) 2 2 Q' := by
  obtain ⟨Q', R', e, -, -, h, -⟩ := qmarray_lq_spec (E := ℝ) (thr := 1 / 100) (by norm_num) (nrows := 2) (ncols := 2) (A := [3, 4, 1, 2])
    (Q := [1, 0, 0, 1]) (L := [0, 0, 0, 0]) rfl rfl rfl
    (by intro j hj k hk hjk; interval_cases j <;> interval_cases k <;> simp_all)
    (by intro v hv w hw; interval_cases v <;> interval_cases w <;> simp [sum_range_succ])
  exact ⟨Q', R', e, h⟩

example : ∃ Q' R', qmarrayHouseholder (E := ℝ) 0 2 2 [3, 4, 1, 2] [1, 0, 0, 1] [0, 0, 0, 0] = .ok (Q', R') ∧
    ∀ j < 2, ∀ i < 2, [3, 4, 1, 2].getD (j * 2 + i) 0 = ∑ k ∈ range 2, R'.getD (j * 2 + k) 0 • Q'.getD (k * 2 + i) 0 := by
  obtain ⟨Q', R', e, -, -, -, -, -, -, h⟩ := qmarray_householder_spec (E := ℝ) (thr := 0) le_rfl (nrows := 2) (ncols := 2) (A := [3, 4, 1, 2])
    (Q := [1, 0, 0, 1]) (R := [0, 0, 0, 0]) rfl rfl rfl
    (by intro j hj k hk hjk; interval_cases j <;> interval_cases k <;> simp_all)
    (by intro v hv w hw; interval_cases v <;> interval_cases w <;> simp [sum_range_succ])
  exact ⟨Q', R', e, h rfl⟩

example : ∃ Q' L', qmarrayHouseholderRows (E := ℝ) 0 2 2 [3, 4, 1, 2] [1, 0, 0, 1] [0, 0, 0, 0] = .ok (Q', L') ∧
    Orthonormal (fun v i => i * 2 + v) 2 2 Q' := by
  obtain ⟨Q', R', e, -, -, h, -⟩ := qmarray_householder_rows_spec (E := ℝ) (thr := 0) le_rfl (nrows := 2) (ncols := 2) (A := [3, 4, 1, 2])
    (Q := [1, 0, 0, 1]) (L := [0, 0, 0, 0]) rfl rfl rfl
    (by intro j hj k hk hjk; interval_cases j <;> interval_cases k <;> simp_all)
    (by intro v hv w hw; interval_cases v <;> interval_cases w <;> simp [sum_range_succ])
  exact ⟨Q', R', e, h⟩

/-- Two functions, here complex numbers with their real inner product. -/
example : ∃ Q' R', quasimatrixQr (E := ℂ) 0 2 [3 + 4 * Complex.I, 1 + 2 * Complex.I] [1, Complex.I] [0, 0, 0, 0] = .ok (Q', R') ∧
    ∀ j < 2, [3 + 4 * Complex.I, 1 + 2 * Complex.I].getD j 0 = ∑ k ∈ range 2, R'.getD (j * 2 + k) 0 • Q'.getD k 0 := by
  obtain ⟨Q', R', e, -, -, -, -, -, -, h⟩ := quasimatrix_qr_spec (E := ℂ) (thr := 0) le_rfl (n := 2)
    (A := [3 + 4 * Complex.I, 1 + 2 * Complex.I]) (Q := [1, Complex.I]) (R := [0, 0, 0, 0]) rfl rfl rfl
    (by intro j hj k hk hjk; interval_cases j <;> interval_cases k <;> simp_all)
    (by intro v hv w hw; interval_cases v <;> interval_cases w <;> simp [Complex.inner])
  exact ⟨Q', R', e, h rfl⟩

end C3.Qr

/- The cross LU factorizations (property C31). -/
import Verif.Qr.LuArr
import Mathlib.Algebra.Module.Submodule.Basic
import Mathlib.Algebra.Module.Pi

set_option linter.unusedSectionVars false

namespace C3.Qr.Lu
open Finset
variable {K : Type} [Field K] [LinearOrder K] [IsStrictOrderedRing K]

/-! ### Quasimatrix -/

theorem qrun {thr : K} (ht : 0 < thr) (am : (K → K) → K) {n : Nat} {A L : List (K → K)} {u p : List K} (hA : A.length = n) (hL : L.length = n)
    (hu : u.length = n * n) (hp : p.length = n) :
    ∃ t : Nat → QS K, t 0 = ⟨A, L, u, p⟩ ∧
      quasimatrixLu thr am n A L u p = .ok (t n, -(((range n).filter fun k => |(t n).u.getD (k * n + k) 0| < thr).card : Int)) ∧
      QShape n (t n) ∧
      LRun n (fun k j => (t k).A.getD j 0) (fun k => (t n).L.getD k 0) (fun k => (t n).p.getD k 0) (fun j k => (t n).u.getD (j * n + k) 0)
        (fun k => 2 * thr ≤ |(t n).u.getD (k * n + k) 0|) ∧
      ∀ k < n, (t n).p.getD k 0 = am ((t k).A.getD k 0) := by
  obtain ⟨t, h0, e, hI, hS⟩ := forN_chain (n := n) (body := qstep thr am n) (s := (⟨A, L, u, p⟩ : QS K)) (fun _ s => QShape n s)
    (fun k s s' => SR n k (2 * thr ≤ |s'.u.getD (k * n + k) 0|) (fun j => s.A.getD j 0) (fun j => s'.A.getD j 0) (fun j => s.L.getD j 0)
        (fun j => s'.L.getD j 0) (fun k => s.p.getD k 0) (fun k => s'.p.getD k 0) (fun j k => s.u.getD (j * n + k) 0) (fun j k => s'.u.getD (j * n + k) 0) ∧
        s'.p.getD k 0 = am (s.A.getD k 0)) ⟨hA, hL, hu, hp⟩ (fun i hi s hs => qstep_ok ht hi hs)
  have hku : ∀ k < n, (t n).u.getD (k * n + k) 0 = (t (k + 1)).u.getD (k * n + k) 0 := fun k hk =>
    chain_keep (f := fun m i => (t m).u.getD (k * n + i) 0) (fun m hm i hi hik => (hS m hm).1.keepu k hk i hi hik) hk
  refine ⟨t, h0, ?_, hI n le_rfl, ?_, fun k hk => ?_⟩
  · unfold quasimatrixLu
    rw [e, bind_ok, info_ok (hI n le_rfl).2.2.1, bind_ok]; rfl
  · have := lrun_of_chain (n := n) (A := fun k j => (t k).A.getD j 0) (L := fun k j => (t k).L.getD j 0) (p := fun k j => (t k).p.getD j 0)
      (u := fun m j k => (t m).u.getD (j * n + k) 0) (reg := fun k => 2 * thr ≤ |(t n).u.getD (k * n + k) 0|)
      (fun k hk => by rw [hku k hk]; exact (hS k hk).1)
    exact this
  · rw [chain_keep (f := fun m i => (t m).p.getD i 0) (fun m hm i hi hik => (hS m hm).1.keepp i hi hik) hk]
    exact (hS k hk).2

/-- C31, quasimatrix: whatever the search for the maximum returns, the call succeeds; every column of the input is the combination
of the columns of `L` with the coefficients in `U`, plus the remainder left in `A`. A column whose pivot is at least `2 thr` has no remainder and no
coefficients below the diagonal. The returned number is minus the count of pivots below `thr`. -/
theorem quasimatrix_lu1d_partial {thr : K} (ht : 0 < thr) (am : (K → K) → K) {n : Nat} {A L : List (K → K)} {u p : List K} (hA : A.length = n)
    (hL : L.length = n) (hu : u.length = n * n) (hp : p.length = n) :
    ∃ s i, quasimatrixLu thr am n A L u p = .ok (s, i) ∧ s.A.length = n ∧ s.L.length = n ∧ s.u.length = n * n ∧ s.p.length = n ∧
      (∀ j < n, ∀ x, A.getD j 0 x = ∑ k ∈ range n, s.u.getD (j * n + k) 0 * s.L.getD k 0 x + s.A.getD j 0 x) ∧
      (∀ j < n, 2 * thr ≤ |s.u.getD (j * n + j) 0| → (∀ x, s.A.getD j 0 x = 0) ∧ (∀ k < n, j < k → s.u.getD (j * n + k) 0 = 0) ∧
        s.L.getD j 0 (s.p.getD j 0) = 1) ∧
      i = -(((range n).filter fun k => |s.u.getD (k * n + k) 0| < thr).card : Int) := by
  obtain ⟨t, h0, e, ⟨l1, l2, l3, l4⟩, hR, -⟩ := qrun ht am hA hL hu hp
  refine ⟨t n, _, e, l1, l2, l3, l4, fun j hj x => ?_, fun j hj hr => ⟨fun x => ?_, fun k hk hjk => ?_, ?_⟩, rfl⟩
  · have := hR.factor hj x
    rw [h0] at this
    exact this
  · exact hR.zero_after hj hr n hj le_rfl x
  · exact hR.upper hj hr k hjk hk
  · exact hR.one hj hr

/-- C31, quasimatrix, when no pivot is below `2 thr`: `A = L U` exactly, `U` upper triangular, `L` unit lower triangular at the pivots, the values of the
columns at the pivots form a nonsingular matrix, and the returned number is zero. -/
theorem quasimatrix_lu1d_exact {thr : K} (ht : 0 < thr) (am : (K → K) → K) {n : Nat} {A L : List (K → K)} {u p : List K} (hA : A.length = n)
    (hL : L.length = n) (hu : u.length = n * n) (hp : p.length = n) {s : QS K} {i : Int} (e : quasimatrixLu thr am n A L u p = .ok (s, i))
    (hreg : ∀ k < n, 2 * thr ≤ |s.u.getD (k * n + k) 0|) :
    i = 0 ∧ (∀ j < n, ∀ x, A.getD j 0 x = ∑ k ∈ range n, s.u.getD (j * n + k) 0 * s.L.getD k 0 x) ∧
      (∀ j < n, ∀ k < n, j < k → s.u.getD (j * n + k) 0 = 0) ∧
      (∀ k < n, s.L.getD k 0 (s.p.getD k 0) = 1) ∧ (∀ k < n, ∀ i < k, s.L.getD k 0 (s.p.getD i 0) = 0) ∧
      (Matrix.of fun i j : Fin n => A.getD j 0 (s.p.getD i 0)).det = ∏ k ∈ range n, s.u.getD (k * n + k) 0 ∧
      (Matrix.of fun i j : Fin n => A.getD j 0 (s.p.getD i 0)).det ≠ 0 := by
  obtain ⟨t, h0, e', -, hR, -⟩ := qrun ht am hA hL hu hp
  rw [e] at e'
  obtain ⟨rfl, rfl⟩ := Prod.mk.inj (Except.ok.inj e')
  have hdet := hR.det hreg
  rw [h0] at hdet
  refine ⟨?_, fun j hj x => ?_, fun j hj k hk hjk => hR.upper hj (hreg j hj) k hjk hk, fun k hk => hR.one hk (hreg k hk),
    fun k hk i hik => hR.lower (fun k hk => hR.one hk (hreg k hk)) (fun k hk hn => absurd (hreg k hk) hn) hik hk, hdet, ?_⟩
  · rw [Finset.filter_false_of_mem]
    · rfl
    · intro k hk c
      have := hreg k (mem_range.1 hk)
      linarith
  · have := hR.exact hj (hreg j hj) x
    rw [h0] at this
    exact this
  · refine hdet ▸ prod_ne_zero_iff.2 fun k hk c => ?_
    have := hreg k (mem_range.1 hk)
    rw [c, abs_zero] at this
    linarith

/-- C31, quasimatrix: if the search really finds the largest absolute value on `D` of every function in a linear space containing the
columns, the columns of `L` are bounded by 1 on `D`. -/
theorem quasimatrix_lu1d_bound {thr : K} (ht : 0 < thr) (am : (K → K) → K) {n : Nat} {A L : List (K → K)} {u p : List K} (hA : A.length = n)
    (hL : L.length = n) (hu : u.length = n * n) (hp : p.length = n) {s : QS K} {i : Int} (e : quasimatrixLu thr am n A L u p = .ok (s, i))
    (hreg : ∀ k < n, 2 * thr ≤ |s.u.getD (k * n + k) 0|) {D : Set K} {F : Submodule K (K → K)} (hF : ∀ j < n, A.getD j 0 ∈ F)
    (ham : ∀ f ∈ F, ∀ x ∈ D, |f x| ≤ |f (am f)|) : ∀ k < n, ∀ x ∈ D, |s.L.getD k 0 x| ≤ 1 := by
  obtain ⟨t, h0, e', -, hR, hP⟩ := qrun ht am hA hL hu hp
  rw [e] at e'
  obtain ⟨rfl, rfl⟩ := Prod.mk.inj (Except.ok.inj e')
  have hLk : ∀ k < n, (t n).L.getD k 0 = ((t n).u.getD (k * n + k) 0)⁻¹ • (t k).A.getD k 0 := fun k hk => by
    funext x; exact (hR.rcol k hk (hreg k hk)).2.2 x
  have hmem : ∀ k ≤ n, ∀ j < n, (t k).A.getD j 0 ∈ F := by
    intro k
    induction k with
    | zero => intro _ j hj; rw [h0]; exact hF j hj
    | succ k ih =>
      intro hk j hj
      have : (t (k + 1)).A.getD j 0 = (t k).A.getD j 0 - (t n).u.getD (j * n + k) 0 • (t n).L.getD k 0 := by
        funext x; exact hR.step k (by omega) j hj x
      rw [this, hLk k (by omega)]
      exact F.sub_mem (ih (by omega) j hj) (F.smul_mem _ (F.smul_mem _ (ih (by omega) k (by omega))))
  intro k hk x hx
  have h1 := hR.rcol k hk (hreg k hk)
  have h2 := ham _ (hmem k hk.le k hk) x hx
  rw [← hP k hk] at h2
  have h3 : 0 < |(t n).u.getD (k * n + k) 0| := abs_pos.2 h1.1
  have h4 : (t n).L.getD k 0 x = ((t n).u.getD (k * n + k) 0)⁻¹ * (t k).A.getD k 0 x := h1.2.2 x
  have h5 : (t n).u.getD (k * n + k) 0 = (t k).A.getD k 0 ((t n).p.getD k 0) := h1.2.1
  rw [h4, abs_mul, abs_inv, inv_mul_le_iff₀ h3, mul_one, h5]
  exact h2

/-- C31 fails between the two thresholds: the call reports full rank, but the column has a remainder the size of the pivot, because the column of `L` was
replaced by the constant 1 (pivot 3/2, threshold 1). -/
theorem quasimatrix_lu1d_counterexample :
    ∃ s, quasimatrixLu (1 : ℚ) (fun _ => 1) 1 [fun x => 3 / 2 * x] [fun _ => 0] [0] [0] = .ok (s, 0) ∧
      (3 / 2 : ℚ) * 0 ≠ s.u.getD 0 0 * s.L.getD 0 0 0 := by
  refine ⟨⟨[fun x => 1 * (3 / 2 * x) + (-(3 / 2 * 1)) * 1], [fun _ => 1], [3 / 2 * 1], [1]⟩, ?_, by norm_num⟩
  have h : |(3 / 2 : ℚ) * 1| < 2 * 1 := by norm_num [abs_lt]
  have h' : ¬ |(3 / 2 : ℚ) * 1| < 1 := by rw [abs_of_nonneg] <;> norm_num
  simp [quasimatrixLu, forN, qstep, rd, wr, qcol, qrow, info, bind, Except.bind, pure, Except.pure]
  norm_num [abs_of_nonneg]

/-- A case with every pivot large: `x` and `1`, with the pivot always taken at 1. -/
example : ∃ s i, quasimatrixLu (1 / 100 : ℚ) (fun f => if f 1 = 0 then 0 else 1) 2 [fun x => x, fun _ => 1] [0, 0] [0, 0, 0, 0] [0, 0] = .ok (s, i) ∧
    ∀ k < 2, 2 * (1 / 100 : ℚ) ≤ |s.u.getD (k * 2 + k) 0| := by
  obtain ⟨s, i, e, -, l2, l3, l4, hfac, hreg, -⟩ := quasimatrix_lu1d_partial (K := ℚ) (thr := 1 / 100) (by norm_num)
    (fun f => if f 1 = 0 then 0 else 1) (n := 2) (A := [fun x => x, fun _ => 1]) (L := [0, 0]) (u := [0, 0, 0, 0]) (p := [0, 0]) rfl rfl rfl rfl
  refine ⟨s, i, e, ?_⟩
  have hu : s.u = [1, 0, 1, 1] := by
    simp [quasimatrixLu, forN, qstep, rd, wr, qcol, qrow, info, bind, Except.bind, pure, Except.pure, C3.Lin.dv] at e
    norm_num at e
    rw [← e.1]
  intro k hk
  rw [hu]
  interval_cases k <;> norm_num

/-! ### Matrix-valued function -/

/-- C31, matrix-valued function: whatever the search returns (a row of the column and a point), and for every way of choosing a replacement column that is
1 at its pivot and vanishes at the earlier ones, the call either fails because no replacement could be made, or every column is the combination of the columns of
`L` plus the remainder left in `A`, and `L` is unit lower triangular at the pivots. A column whose pivot exceeds `thr` has no remainder and no coefficient
below the diagonal. The returned number is minus the count of pivots below `thr`. -/
theorem qmarray_lu1d_spec {thr : K} (ht : 0 ≤ thr) {am : List (K → K) → Nat × K} {nrows ncols : Nat}
    {anyL : Nat → List Nat → List K → C (List (K → K) × List Nat × List K)}
    (ham : ∀ c : List (K → K), c.length = nrows → (am c).1 < nrows) (hany : AnyOk nrows ncols anyL) {A L : List (K → K)} {u px : List K} {piv : List Nat}
    (hA : A.length = nrows * ncols) (hL : L.length = nrows * ncols) (hu : u.length = ncols * ncols) (hpiv : piv.length = ncols) (hpx : px.length = ncols) :
    (∃ e, qmarrayLu thr am anyL nrows ncols A L u piv px = .error e ∧ ∃ k piv px, anyL k piv px = .error e) ∨
    ∃ s i, qmarrayLu thr am anyL nrows ncols A L u piv px = .ok (s, i) ∧
      s.A.length = nrows * ncols ∧ s.L.length = nrows * ncols ∧ s.u.length = ncols * ncols ∧ s.piv.length = ncols ∧ s.px.length = ncols ∧
      (∀ k < ncols, s.piv.getD k 0 < nrows) ∧
      (∀ j < ncols, ∀ r < nrows, ∀ x, A.getD (j * nrows + r) 0 x =
        ∑ k ∈ range ncols, s.u.getD (j * ncols + k) 0 * s.L.getD (k * nrows + r) 0 x + s.A.getD (j * nrows + r) 0 x) ∧
      (∀ k < ncols, s.L.getD (k * nrows + s.piv.getD k 0) 0 (s.px.getD k 0) = 1) ∧
      (∀ k < ncols, ∀ i < k, s.L.getD (k * nrows + s.piv.getD i 0) 0 (s.px.getD i 0) = 0) ∧
      (∀ j < ncols, thr < |s.u.getD (j * ncols + j) 0| → (∀ r < nrows, ∀ x, s.A.getD (j * nrows + r) 0 x = 0) ∧
        ∀ k < ncols, j < k → s.u.getD (j * ncols + k) 0 = 0) ∧
      ((∀ j < ncols, thr < |s.u.getD (j * ncols + j) 0|) →
        (Matrix.of fun i j : Fin ncols => A.getD (j * nrows + s.piv.getD i 0) 0 (s.px.getD i 0)).det =
          ∏ k ∈ range ncols, s.u.getD (k * ncols + k) 0) ∧
      i = -(((range ncols).filter fun k => |s.u.getD (k * ncols + k) 0| < thr).card : Int) := by
  rcases forN_chain_err (n := ncols) (body := mstep thr am anyL nrows ncols) (s := (⟨A, L, u, piv, px⟩ : MS K)) (fun k s => MShape nrows ncols k s)
    (MRel thr nrows ncols) (fun e => ∃ k piv px, anyL k piv px = .error e) ⟨hA, hL, hu, hpiv, hpx, fun j hj => by omega⟩
    (fun k hk s hs => mstep_ok ht ham hany hk hs) with ⟨e, he, hb⟩ | ⟨t, h0, e, hI, hS⟩
  · exact Or.inl ⟨e, by unfold qmarrayLu; rw [he]; rfl, hb⟩
  · have hT := hI ncols le_rfl
    have hku : ∀ k < ncols, (t ncols).u.getD (k * ncols + k) 0 = (t (k + 1)).u.getD (k * ncols + k) 0 := fun k hk =>
      chain_keep (f := fun m i => (t m).u.getD (k * ncols + i) 0) (fun m hm i hi hik => (hS m hm).sr.keepu k hk i hi hik) hk
    have hR : LRun ncols (fun k => cv nrows (t k).A) (cv nrows (t ncols).L) (pv (t ncols)) (fun j k => (t ncols).u.getD (j * ncols + k) 0)
        (fun k => thr < |(t ncols).u.getD (k * ncols + k) 0|) :=
      lrun_of_chain (n := ncols) (A := fun k => cv nrows (t k).A) (L := fun k => cv nrows (t k).L) (p := fun k => pv (t k))
        (u := fun m j k => (t m).u.getD (j * ncols + k) 0) (reg := fun k => thr < |(t ncols).u.getD (k * ncols + k) 0|)
        (fun k hk => by rw [hku k hk]; exact (hS k hk).sr)
    have hkL : ∀ k < ncols, cv nrows (t ncols).L k = cv nrows (t (k + 1)).L k := fun k hk =>
      chain_keep (f := fun m i => cv nrows (t m).L i) (fun m hm i hi hik => (hS m hm).sr.keepL i hi hik) hk
    have hkp : ∀ k < ncols, pv (t ncols) k = pv (t (k + 1)) k := fun k hk =>
      chain_keep (f := fun m i => pv (t m) i) (fun m hm i hi hik => (hS m hm).sr.keepp i hi hik) hk
    have hkp' : ∀ k ≤ ncols, ∀ i < k, pv (t k) i = pv (t (i + 1)) i := by
      intro k hk i hi
      exact chain_keep (n := k) (f := fun m i => pv (t m) i) (fun m hm i hi hik => (hS m (by omega)).sr.keepp i (by omega) hik) hi
    have hone : ∀ k < ncols, cv nrows (t ncols).L k (pv (t ncols) k) = 1 := fun k hk => by rw [hkL k hk, hkp k hk]; exact (hS k hk).one
    have hzero : ∀ k < ncols, ¬ thr < |(t ncols).u.getD (k * ncols + k) 0| → ∀ i < k, cv nrows (t ncols).L k (pv (t ncols) i) = 0 := by
      intro k hk hn i hi
      rw [hkL k hk, hkp i (by omega), ← hkp' (k + 1) (by omega) i (by omega)]
      rw [hku k hk] at hn
      exact (hS k hk).zero hn i hi
    have hcv : ∀ (B : List (K → K)) j r x, r < nrows → cv nrows B j (r, x) = B.getD (j * nrows + r) 0 x := fun B j r x hr => by unfold cv; rw [if_pos hr]
    have hcp : ∀ (B : List (K → K)) j i, i < ncols → cv nrows B j (pv (t ncols) i) = B.getD (j * nrows + (t ncols).piv.getD i 0) 0 ((t ncols).px.getD i 0) :=
      fun B j i hi => hcv B j _ _ (hT.lt i hi)
    refine Or.inr ⟨t ncols, _, by { unfold qmarrayLu; rw [e, bind_ok, info_ok hT.u, bind_ok]; rfl }, hT.A, hT.L, hT.u, hT.piv, hT.px, hT.lt,
      fun j hj r hr x => ?_, fun k hk => ?_, fun k hk i hi => ?_, fun j hj hr => ⟨fun r hr' x => ?_, fun k hk hjk => ?_⟩, fun hreg => ?_, rfl⟩
    · have := hR.factor hj (r, x)
      rw [h0] at this
      simp only [hcv _ _ _ _ hr] at this
      exact this
    · have := hone k hk
      rwa [hcp _ _ _ hk] at this
    · have := hR.lower hone hzero hi hk
      rwa [hcp _ _ _ (by omega)] at this
    · have := hR.zero_after hj hr ncols hj le_rfl (r, x)
      rwa [hcv _ _ _ _ hr'] at this
    · exact hR.upper hj hr k hjk hk
    · have := hR.det hreg
      rw [h0] at this
      rw [← this]
      congr 1
      ext i j
      simp only [Matrix.of_apply]
      rw [hcp _ _ _ i.2]

/-- C31, matrix-valued function, when every pivot exceeds `thr`: exactly `A = L U` with `U` upper triangular, and the returned number is zero. -/
theorem qmarray_lu1d_exact {thr : K} (ht : 0 ≤ thr) {am : List (K → K) → Nat × K} {nrows ncols : Nat}
    {anyL : Nat → List Nat → List K → C (List (K → K) × List Nat × List K)}
    (ham : ∀ c : List (K → K), c.length = nrows → (am c).1 < nrows) (hany : AnyOk nrows ncols anyL) {A L : List (K → K)} {u px : List K} {piv : List Nat}
    (hA : A.length = nrows * ncols) (hL : L.length = nrows * ncols) (hu : u.length = ncols * ncols) (hpiv : piv.length = ncols) (hpx : px.length = ncols)
    {s : MS K} {i : Int} (e : qmarrayLu thr am anyL nrows ncols A L u piv px = .ok (s, i)) (hreg : ∀ j < ncols, thr < |s.u.getD (j * ncols + j) 0|) :
    i = 0 ∧ (∀ j < ncols, ∀ r < nrows, ∀ x, A.getD (j * nrows + r) 0 x =
        ∑ k ∈ range ncols, s.u.getD (j * ncols + k) 0 * s.L.getD (k * nrows + r) 0 x) ∧
      ∀ j < ncols, ∀ k < ncols, j < k → s.u.getD (j * ncols + k) 0 = 0 := by
  rcases qmarray_lu1d_spec ht ham hany hA hL hu hpiv hpx with ⟨e', h, -⟩ | ⟨s', i', h, -, -, -, -, -, -, hfac, -, -, hcol, -, hi⟩
  · rw [e] at h; exact absurd h (by simp)
  · rw [e] at h
    obtain ⟨rfl, rfl⟩ := Prod.mk.inj (Except.ok.inj h)
    refine ⟨?_, fun j hj r hr x => ?_, fun j hj k hk hjk => (hcol j hj (hreg j hj)).2 k hk hjk⟩
    · rw [hi, Finset.filter_false_of_mem]
      · rfl
      · intro k hk
        exact not_lt.2 (hreg k (mem_range.1 hk)).le
    · rw [hfac j hj r hr x, (hcol j hj (hreg j hj)).1 r hr x, add_zero]

/-- C31: the replacement column of `create_any_L` is an admissible one, so the theorems above apply to it. -/
theorem create_any_L_spec {thr : K} {am am' : List (K → K) → Nat × K} {nrows ncols : Nat} (ham : ∀ c : List (K → K), c.length = nrows → (am c).1 < nrows)
    (ham' : ∀ c : List (K → K), c.length = nrows → (am' c).1 < nrows) (ht : 0 ≤ thr) {A L : List (K → K)} {u px : List K} {piv : List Nat}
    (hA : A.length = nrows * ncols) (hL : L.length = nrows * ncols) (hu : u.length = ncols * ncols) (hpiv : piv.length = ncols) (hpx : px.length = ncols)
    {s : MS K} {i : Int} (e : qmarrayLu thr am (createAnyL thr am' nrows) nrows ncols A L u piv px = .ok (s, i)) :
    (∀ k < ncols, s.L.getD (k * nrows + s.piv.getD k 0) 0 (s.px.getD k 0) = 1) ∧
      ∀ k < ncols, ∀ i < k, s.L.getD (k * nrows + s.piv.getD i 0) 0 (s.px.getD i 0) = 0 := by
  rcases qmarray_lu1d_spec ht ham (createAnyL_ok ham') hA hL hu hpiv hpx with ⟨e', h, -⟩ | ⟨s', i', h, -, -, -, -, -, -, -, h1, h2, -⟩
  · rw [e] at h; exact absurd h (by simp)
  · rw [e] at h
    obtain ⟨rfl, rfl⟩ := Prod.mk.inj (Except.ok.inj h)
    exact ⟨h1, h2⟩

/-- Two equal columns: the second pivot vanishes, a replacement column is made, and the call reports one missing rank. -/
example : (qmarrayLu (1 / 100 : ℚ) (fun c => if c.getD 0 0 1 ≠ 0 then (0, 1) else (1, 0)) (createAnyL (1 / 100) (fun _ => (0, 0)) 2) 2 2
    [fun x => x, 1, fun x => x, 1] [0, 0, 0, 0] [0, 0, 0, 0] [0, 0] [0, 0]).map Prod.snd = .ok (-1) := by decide +kernel

/-- A case of the hypotheses of `qmarray_lu1d_exact`. -/
example : (qmarrayLu (1 / 100 : ℚ) (fun c => if c.getD 0 0 1 ≠ 0 then (0, 1) else (1, 0)) (createAnyL (1 / 100) (fun _ => (0, 0)) 2) 2 2
    [fun x => x, 1, fun x => x, 2] [0, 0, 0, 0] [0, 0, 0, 0] [0, 0] [0, 0]).map (fun r => r.1.u) = .ok [1, 0, 1, 1] := by decide +kernel

end C3.Qr.Lu

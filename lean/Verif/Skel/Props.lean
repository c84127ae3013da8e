/-
C138: `maxvol_rhs` selects different rows whose submatrix has the reported inverse, never loses volume, and stops with a submatrix that
dominates all rows or after its volume has grown by a factor (1+delta)^(n+1) - provided that it does not start from a singular submatrix.
-/
import Verif.Skel.Lemmas

namespace C3.Sk
open Finset Matrix

/-! ## Specification -/

section Spec
variable {K : Type} [Field K]

/-- Rows `rows` of the column-major `n × r` matrix `A`. -/
def sub (A : List K) (n r : Nat) (rows : List Nat) : Matrix (Fin r) (Fin r) K :=
  Matrix.of fun i j => A.getD (j.1 * n + rows.getD i.1 0) 0

/-- A column-major `r × r` buffer as a matrix. -/
def mat (r : Nat) (M : List K) : Matrix (Fin r) (Fin r) K := Matrix.of fun i j => M.getD (j.1 * r + i.1) 0

/-- What LAPACK's `dgetrf` promises about its pivots. -/
structure LuLaw (lu : Nat → List K → Int × List Nat) : Prop where
  info : ∀ r M, M.length = r * r → 0 ≤ (lu r M).1
  len : ∀ r M, M.length = r * r → (lu r M).2.length = r
  piv : ∀ r M, M.length = r * r → ∀ k < r, k + 1 ≤ (lu r M).2.getD k 0 ∧ (lu r M).2.getD k 0 ≤ r

/-- What `dgetrf` and `dgetri` promise together. -/
def InvLaw (inv : Nat → List K → List K) : Prop :=
  ∀ r M, M.length = r * r → (inv r M).length = r * r ∧ ((mat r M).det ≠ 0 → mat r (inv r M) * mat r M = 1)

/-- The rows the search starts from: 0, 1, 2, ... after exchanging `k` with the `k`-th pivot, for `k < r` in turn. -/
def startRows (n r : Nat) (ipiv : List Nat) : List Nat :=
  ((List.range r).foldl (fun al k => (al.set k (al.getD (ipiv.getD k 0) 0)).set (ipiv.getD k 0) (al.getD k 0)) (List.range n)).take r

end Spec

/-! ## Proofs -/

section Proofs
variable {K : Type} [Field K] [LinearOrder K] [IsStrictOrderedRing K] {n r : Nat} {A : List K}

/-- Entry `(i, j)` of `A` (rows in the order `σ`) times the matrix `V`. -/
def prd (A : List K) (n r : Nat) (V : List K) (i j : Nat) : K := ∑ t ∈ range r, A.getD (t * n + i) 0 * V.getD (j * r + t) 0

/-- Invariant of the loop. -/
structure Inv (A : List K) (n r : Nat) (s : St K) (σ : Equiv.Perm Nat) : Prop where
  lt : ∀ i < n, σ i < n
  al : s.al = (List.range n).map σ
  rows : s.rows = (List.range r).map σ
  len : s.inv.length = r * r
  B : s.B = cm n r fun i j => prd A n r s.inv (σ i) j
  one : ∀ i < r, ∀ j < r, prd A n r s.inv (σ i) j = if i = j then 1 else 0

theorem rows_getD {f : Nat → Nat} {i : Nat} (hi : i < r) : ((List.range r).map f).getD i 0 = f i := by simp [hi]

omit [LinearOrder K] [IsStrictOrderedRing K] in
theorem cm_getD {M : List K} (h : M.length = r * r) : M = cm r r fun i j => M.getD (j * r + i) 0 := by
  have := eq_cm (0 : K) h
  simpa only [List.getD_eq_getElem?_getD] using this

omit [LinearOrder K] [IsStrictOrderedRing K] in
theorem Inv.mul {s : St K} {σ : Equiv.Perm Nat} (h : Inv A n r s σ) : sub A n r s.rows * mat r s.inv = 1 := by
  ext i j
  rw [Matrix.mul_apply, Matrix.one_apply]
  have e := h.one i i.2 j j.2
  rw [prd, ← Fin.sum_univ_eq_sum_range (fun t => A.getD (t * n + σ i) 0 * s.inv.getD (j * r + t) 0)] at e
  simp only [sub, mat, Matrix.of_apply, h.rows, rows_getD i.2, Fin.ext_iff]
  exact e

/-- One exchange. -/
theorem step_ok {s : St K} {σ : Equiv.Perm Nat} (hrn : r ≤ n) (h : Inv A n r s σ) {row col : Nat}
    (hr : row < n) (hrr : r ≤ row) (hc : col < r) (hp : prd A n r s.inv (σ row) col ≠ 0) :
    ∃ s', step n r (col * n + row) s = .ok s' ∧ Inv A n r s' (σ * Equiv.swap col row) ∧
      (sub A n r s'.rows).det = prd A n r s.inv (σ row) col * (sub A n r s.rows).det := by
  have hcn : col < n := by omega
  set p := prd A n r s.inv (σ row) col with hpdef
  set V := s.inv with hV
  have hN : s.inv = cm r r fun i j => V.getD (j * r + i) 0 := cm_getD h.len
  -- the new inverse
  set V' : List K := cm r r fun i j => V.getD (j * r + i) 0 + -1 / p * V.getD (col * r + i) 0 *
    (prd A n r V (σ row) j - prd A n r V (σ col) j) with hV'
  have hVl : V'.length = r * r := by rw [hV', cm_length]
  have hVg : ∀ i < r, ∀ j < r, V'.getD (j * r + i) 0 = V.getD (j * r + i) 0 + -1 / p * V.getD (col * r + i) 0 *
      (prd A n r V (σ row) j - prd A n r V (σ col) j) := fun i hi j hj => by rw [hV', getD_cm _ _ hi hj]
  have hprd : ∀ i, ∀ j < r, prd A n r V' i j = prd A n r V i j + -1 / p * prd A n r V i col *
      (prd A n r V (σ row) j - prd A n r V (σ col) j) := by
    intro i j hj
    have e : ∀ t ∈ range r, A.getD (t * n + i) 0 * V'.getD (j * r + t) 0 = A.getD (t * n + i) 0 * V.getD (j * r + t) 0 +
        -1 / p * (prd A n r V (σ row) j - prd A n r V (σ col) j) * (A.getD (t * n + i) 0 * V.getD (col * r + t) 0) := fun t ht => by
      rw [hVg t (mem_range.1 ht) j hj]; ring
    rw [prd, sum_congr rfl e, sum_add_distrib, ← mul_sum]
    simp only [prd]; ring
  have hcol : ∀ j < r, prd A n r V (σ col) j = if col = j then 1 else 0 := fun j hj => h.one col hc j hj
  refine ⟨⟨cm n r fun i j => prd A n r V' ((σ * Equiv.swap col row) i) j, V', (List.range n).map (σ * Equiv.swap col row),
    (List.range r).map (σ * Equiv.swap col row)⟩, ?_, ⟨fun i hi => h.lt _ (swap_lt hcn hr hi), rfl, rfl, hVl, rfl, ?_⟩, ?_⟩
  · have em : (col * n + row) % n = row := cm_mod hr
    have ec : (col * n + row - row) / n = col := by
      rw [Nat.add_sub_cancel, Nat.mul_div_cancel _ (by omega)]
    have etl : dgemvN r r s.inv r ((List.replicate r (0 : K)).set col 1) (List.replicate r 0)
        = .ok ((List.range r).map fun i => V.getD (col * r + i) 0) := by
      rw [dgemvN_ok (by rw [h.len]) (by simp) (by simp)]
      have : (List.replicate r (0 : K)).drop r = [] := by simp
      rw [this, List.append_nil]
      congr 1
      refine List.map_congr_left fun i hi => ?_
      rw [Finset.sum_eq_single_of_mem col (mem_range.2 hc)]
      · have : ((List.replicate r (0 : K)).set col 1).getD col 0 = 1 := by simp [hc]
        rw [this, mul_one]
      · intro j hj hjc
        have : ((List.replicate r (0 : K)).set col 1).getD j 0 = 0 := by
          rw [List.getD_eq_getElem?_getD, List.getElem?_set_ne (Ne.symm hjc)]
          simp [mem_range.1 hj]
        rw [this, mul_zero]
    have erow : s.rows.set col (σ row) = (List.range r).map (σ * Equiv.swap col row) := by
      rw [h.rows]
      apply List.ext_getElem?
      intro k
      rw [List.getElem?_set]
      by_cases hk : k < r
      · by_cases hck : col = k
        · subst hck; simp [hk]
        · have : Equiv.swap col row k = k := Equiv.swap_apply_of_ne_of_ne (Ne.symm hck) (by omega)
          simp [hk, hck, this]
      · rw [if_neg (by omega), List.getElem?_eq_none (by simp; omega), List.getElem?_eq_none (by simp; omega)]
    have eal : rd s.al row = .ok (σ row) := rd_of_getElem? (by rw [h.al]; simp [hr])
    have esw : swapAt s.al col row = .ok ((List.range n).map (σ * Equiv.swap col row)) := by
      rw [h.al, swapAt_map _ hcn hr]; rfl
    have ep : rd s.B (col * n + row) = .ok p := by rw [h.B, rd_cm _ hr hc]
    have einv : dger r r (-1 / p) ((List.range r).map fun i => V.getD (col * r + i) 0)
        ((List.range r).map fun j => prd A n r V (σ row) j - prd A n r V (σ col) j) s.inv r = .ok V' := by
      rw [hN, dger_ok]
    have eB : dger n r (-1 / p) ((List.range n).map fun i => prd A n r V (σ i) col - (if i = col then 1 else 0) + if i = row then 1 else 0)
        ((List.range r).map fun j => prd A n r V (σ row) j - if j = col then 1 else 0) s.B n
        = .ok (cm n r fun i j => prd A n r V' ((σ * Equiv.swap col row) i) j) := by
      rw [h.B, dger_ok]
      congr 1
      refine cm_congr fun i hi j hj => ?_
      rw [hprd _ j hj, hcol j hj, Equiv.Perm.mul_apply]
      have ej : (if j = col then (1 : K) else 0) = if col = j then 1 else 0 := by simp only [eq_comm]
      by_cases h1 : i = col
      · subst h1
        rw [Equiv.swap_apply_left, ← hpdef, if_pos rfl, if_neg (by omega), ej, hcol j hj, hcol i hc, if_pos rfl]
        field_simp
        ring
      · by_cases h2 : i = row
        · subst h2
          rw [Equiv.swap_apply_right, ← hpdef, if_neg h1, if_pos rfl, ej, hcol j hj, hcol col hc, if_pos rfl]
          field_simp
          ring
        · rw [Equiv.swap_apply_of_ne_of_ne h1 h2, if_neg h1, if_neg h2, ej]
          ring
    simp only [step, em, ec]
    rw [h.B, vecY_ok _ hr hc, bind_ok, vecX_ok _ hrn hr hc, bind_ok, eal, bind_ok, esw, bind_ok,
      wr_ok _ (by rw [h.rows]; simpa using hc), bind_ok, erow, vecT_ok _ hr hcn, bind_ok, wr_ok _ (by simpa using hc), bind_ok, etl,
      bind_ok, ← h.B, ep, bind_ok, negInv, if_neg hp, bind_ok, einv, bind_ok, eB, bind_ok]
  · intro i hi j hj
    show prd A n r V' ((σ * Equiv.swap col row) i) j = _
    rw [hprd _ j hj, hcol j hj, Equiv.Perm.mul_apply]
    by_cases h1 : i = col
    · subst h1
      rw [Equiv.swap_apply_left, ← hpdef]
      field_simp
      ring
    · rw [Equiv.swap_apply_of_ne_of_ne h1 (by omega), h.one i hi j hj, h.one i hi col hc, if_neg h1]
      ring
  · have hS : sub A n r s.rows * mat r V = 1 := h.mul
    have hS' : mat r V * sub A n r s.rows = 1 := mul_eq_one_comm.1 hS
    have hu : sub A n r ((List.range r).map (σ * Equiv.swap col row))
        = (sub A n r s.rows).updateRow ⟨col, hc⟩ (∑ k : Fin r, prd A n r V (σ row) k • (sub A n r s.rows) k) := by
      ext i j
      rw [Matrix.updateRow_apply]
      by_cases hi : i = ⟨col, hc⟩
      · subst hi
        rw [if_pos rfl]
        simp only [sub, Matrix.of_apply, rows_getD hc, Equiv.Perm.mul_apply, Equiv.swap_apply_left, Finset.sum_apply, Pi.smul_apply,
          smul_eq_mul]
        have e1 : ∀ k : Fin r, prd A n r V (σ row) k * A.getD (j * n + s.rows.getD k 0) 0
            = ∑ t : Fin r, A.getD (t * n + σ row) 0 * (mat r V t k * sub A n r s.rows k j) := fun k => by
          rw [prd, ← Fin.sum_univ_eq_sum_range (fun t => A.getD (t * n + σ row) 0 * V.getD (k * r + t) 0), Finset.sum_mul]
          exact sum_congr rfl fun t _ => by simp only [mat, sub, Matrix.of_apply]; ring
        rw [sum_congr rfl fun k _ => e1 k, Finset.sum_comm]
        simp only [← Finset.mul_sum]
        have e2 : ∀ t : Fin r, ∑ k : Fin r, mat r V t k * sub A n r s.rows k j = if t = j then 1 else 0 := fun t => by
          rw [← Matrix.mul_apply, hS', Matrix.one_apply]
        simp only [e2, mul_ite, mul_one, mul_zero, Finset.sum_ite_eq', mem_univ, if_true]
      · rw [if_neg hi]
        have : (i : Nat) ≠ col := fun e => hi (Fin.ext e)
        simp only [sub, Matrix.of_apply, rows_getD i.2, Equiv.Perm.mul_apply, h.rows]
        rw [Equiv.swap_apply_of_ne_of_ne this (by have := i.2; omega)]
    show (sub A n r ((List.range r).map (σ * Equiv.swap col row))).det = _
    rw [hu, Matrix.det_updateRow_sum]
    rfl

/-- The loop. -/
theorem mvLoop_ok {delta : K} (hd : 0 < delta) (hr0 : 0 < r) (hrn : r ≤ n) :
    ∀ (fuel iter : Nat) (s : St K) (σ : Equiv.Perm Nat), Inv A n r s σ → n + 2 ≤ fuel + iter → 0 < fuel → iter ≤ n + 1 →
      ∃ s' σ' k, mvLoop delta n r fuel iter s = .ok s' ∧ Inv A n r s' σ' ∧
        (1 + delta) ^ k * |(sub A n r s.rows).det| ≤ |(sub A n r s'.rows).det| ∧
        ((∀ i < n, ∀ j < r, |prd A n r s'.inv i j| < 1 + delta) ∨ iter + k = n + 1)
  | 0, _, _, _, _, _, h0, _ => absurd h0 (by decide)
  | fuel + 1, iter, s, σ, h, hf, _, hi => by
    have hn : 0 < n := by omega
    obtain ⟨m, hm, h1, h2⟩ := maxabs_ok (a := s.B) (N := n * r) (Nat.mul_pos hn hr0) (by rw [h.B, cm_length])
    have hrow : m % n < n := Nat.mod_lt _ hn
    have hcol : m / n < r := (Nat.div_lt_iff_lt_mul hn).2 (by rwa [Nat.mul_comm])
    have hB : ∀ i < n, ∀ j < r, s.B.getD (j * n + i) 0 = prd A n r s.inv (σ i) j := fun i hi j hj => by
      rw [h.B, getD_cm _ _ hi hj]
    have hme : m = m / n * n + m % n := (Nat.div_add_mod' m n).symm
    have hmv : s.B.getD m 0 = prd A n r s.inv (σ (m % n)) (m / n) := by
      have := hB _ hrow _ hcol
      rwa [← hme] at this
    rw [mvLoop, h1, bind_ok]
    by_cases hlt : |s.B.getD m 0| < 1 + delta
    · rw [if_pos hlt]
      refine ⟨s, σ, 0, rfl, h, by rw [pow_zero, one_mul], .inl fun i hi j hj => ?_⟩
      have hin : σ.symm i < n := by
        by_contra hc
        have hinj : Set.InjOn σ (range n) := σ.injective.injOn
        have him : (range n).image σ ⊆ range n := fun x hx => by
          obtain ⟨y, hy, rfl⟩ := mem_image.1 hx
          exact mem_range.2 (h.lt y (mem_range.1 hy))
        have heq : (range n).image σ = range n := Finset.eq_of_subset_of_card_le him (by rw [card_image_of_injOn hinj])
        have : i ∈ (range n).image σ := by rw [heq]; exact mem_range.2 hi
        obtain ⟨y, hy, hyi⟩ := mem_image.1 this
        apply hc
        rw [← hyi, Equiv.symm_apply_apply]
        exact mem_range.1 hy
      have := h2 (j * n + σ.symm i) (cm_idx_lt hin hj)
      rw [hB _ hin j hj, Equiv.apply_symm_apply] at this
      exact lt_of_le_of_lt this hlt
    · rw [if_neg hlt]
      by_cases hit : iter > n
      · rw [if_pos hit]
        exact ⟨s, σ, 0, rfl, h, by rw [pow_zero, one_mul], .inr (by omega)⟩
      · rw [if_neg hit]
        rw [not_lt, hmv] at hlt
        have hge : r ≤ m % n := by
          by_contra hc
          rw [not_le] at hc
          rw [h.one _ hc _ hcol] at hlt
          have : |(if m % n = m / n then (1 : K) else 0)| ≤ 1 := by split_ifs <;> simp
          linarith
        have hne : prd A n r s.inv (σ (m % n)) (m / n) ≠ 0 := fun e => by
          rw [e, abs_zero] at hlt; linarith
        obtain ⟨s1, g1, g2, g3⟩ := step_ok hrn h hrow hge hcol hne
        rw [← hme] at g1
        obtain ⟨s2, σ2, k, g4, g5, g6, g7⟩ := mvLoop_ok hd hr0 hrn fuel (iter + 1) s1 _ g2 (by omega) (by omega) (by omega)
        refine ⟨s2, σ2, k + 1, by rw [g1, bind_ok]; exact g4, g5, ?_, ?_⟩
        · refine le_trans ?_ g6
          rw [g3, abs_mul, pow_succ, mul_assoc]
          exact mul_le_mul_of_nonneg_left (mul_le_mul_of_nonneg_right hlt (abs_nonneg _)) (pow_nonneg (by linarith) _)
        · rcases g7 with g7 | g7
          · exact .inl g7
          · exact .inr (by omega)

omit [LinearOrder K] [IsStrictOrderedRing K] [Field K] in
theorem startRows_eq {ipiv : List Nat} (hrn : r ≤ n) (hp : ∀ k < r, ipiv.getD k 0 < n) :
    startRows n r ipiv = (List.range r).map (prm ipiv r) := by
  have h : ∀ k ≤ r, (List.range k).foldl (fun al k => (al.set k (al.getD (ipiv.getD k 0) 0)).set (ipiv.getD k 0) (al.getD k 0))
      (List.range n) = (List.range n).map (prm ipiv k) := by
    intro k hk
    induction k with
    | zero => simp [prm]
    | succ k ih =>
      rw [List.range_succ, List.foldl_append, ih (by omega)]
      simp only [List.foldl_cons, List.foldl_nil]
      have hkn : k < n := by omega
      have hpn := hp k (by omega)
      apply List.ext_getElem?
      intro i
      rw [List.getElem?_set, List.getElem?_set]
      simp only [List.length_set, List.length_map, List.length_range]
      by_cases hi : i < n
      · have e : ((List.range n).map (prm ipiv (k + 1)))[i]? = some (prm ipiv k (Equiv.swap k (ipiv.getD k 0) i)) := by
          simp [hi, prm]
        rw [e]
        by_cases h1 : ipiv.getD k 0 = i
        · rw [if_pos h1, if_pos hpn, ← h1, Equiv.swap_apply_right, rows_getD hkn]
        · rw [if_neg h1]
          by_cases h2 : k = i
          · rw [if_pos h2, if_pos hkn, ← h2, Equiv.swap_apply_left, rows_getD hpn]
          · rw [if_neg h2, Equiv.swap_apply_of_ne_of_ne (Ne.symm h2) (Ne.symm h1)]
            simp [hi]
      · rw [if_neg (by omega), if_neg (by omega), List.getElem?_eq_none (by simp; omega), List.getElem?_eq_none (by simp; omega)]
  rw [startRows, h r (le_refl _), ← List.map_take, List.take_range, Nat.min_eq_left hrn]

/-- **C138** With at least one row more than columns and a nonsingular submatrix to start from, the selection succeeds: code 0, different rows, the
inverse of their submatrix, a volume at least that of the start, and every row of `A` is a combination of the selected rows with
coefficients below `1 + delta` - or the volume has grown by the factor `(1+delta)^(n+1)`. Partial: exact arithmetic, and the start
may be singular although `A` is not (`maxvol_singular_counterexample`). -/
theorem maxvol_partial {delta : K} (hd : 0 < delta) {lu : Nat → List K → Int × List Nat} (hlu : LuLaw lu) {inv : Nat → List K → List K}
    (hinv : InvLaw inv) (hr0 : 0 < r) (hrn : r < n) (hA : A.length = n * r) {rows : List Nat} (hrows : rows.length = r) {V : List K}
    (hV : V.length = r * r) (hs : (sub A n r (startRows n r (lu r (A.take (r * r))).2)).det ≠ 0) :
    ∃ rows' V', maxvol delta lu inv A n r rows V = .ok (0, rows', V') ∧ rows'.length = r ∧ rows'.Nodup ∧ (∀ i ∈ rows', i < n) ∧
      V'.length = r * r ∧ mat r V' * sub A n r rows' = 1 ∧
      |(sub A n r (startRows n r (lu r (A.take (r * r))).2)).det| ≤ |(sub A n r rows').det| ∧
      ((∀ i < n, ∀ j < r, |∑ t ∈ range r, A.getD (t * n + i) 0 * V'.getD (j * r + t) 0| < 1 + delta) ∨
        (1 + delta) ^ (n + 1) * |(sub A n r (startRows n r (lu r (A.take (r * r))).2)).det| ≤ |(sub A n r rows').det|) := by
  have htk : (A.take (r * r)).length = r * r := by
    rw [List.length_take, hA, Nat.min_eq_left (Nat.mul_le_mul_right _ hrn.le)]
  have hpi : ∀ k < r, (lu r (A.take (r * r))).2.getD k 0 < n := fun k hk => by have := (hlu.piv r _ htk k hk).2; omega
  have hpl : r ≤ (lu r (A.take (r * r))).2.length := (hlu.len r _ htk).ge
  set ip := (lu r (A.take (r * r))).2 with hip
  rw [startRows_eq hrn.le hpi] at hs ⊢
  set R := (List.range r).map (prm ip r) with hR
  have hRi : ∀ i < r, R.getD i 0 < n := fun i hi => by rw [hR, rows_getD hi]; exact prm_lt hrn.le hpi r (le_refl _) i (by omega)
  have hrw : forN r (fun ii rows => do
      let v ← rd ((List.range n).map (prm ip r)) ii
      wr rows ii v) rows = .ok R := by
    refine forN_fill_all _ hrows fun i hi b _ => ?_
    rw [rd_of_getElem? (v := prm ip r i) (by simp [show i < n by omega]), bind_ok]
  set M := cm r r fun i j => A.getD (j * n + R.getD i 0) 0 with hM
  have hMl : M.length = r * r := by rw [hM, cm_length]
  have hMs : mat r M = sub A n r R := by
    ext i j
    simp only [mat, sub, Matrix.of_apply]
    rw [hM, getD_cm _ _ i.2 j.2]
  obtain ⟨hl, hi⟩ := hinv r M hMl
  have hone := hi (by rw [hMs]; exact hs)
  rw [hMs] at hone
  have hone' := mul_eq_one_comm.1 hone
  have hI : Inv A n r ⟨cm n r fun i j => prd A n r (inv r M) (prm ip r i) j, inv r M, (List.range n).map (prm ip r), R⟩ (prm ip r) := by
    refine ⟨prm_lt hrn.le hpi r (le_refl _), rfl, rfl, hl, rfl, fun i hi j hj => ?_⟩
    have := congrFun (congrFun hone' ⟨i, hi⟩) ⟨j, hj⟩
    rw [Matrix.mul_apply, Matrix.one_apply] at this
    simp only [sub, mat, Matrix.of_apply, hR, rows_getD hi, Fin.mk.injEq] at this
    rw [← this, prd, ← Fin.sum_univ_eq_sum_range (fun t => A.getD (t * n + prm ip r i) 0 * (inv r M).getD (j * r + t) 0)]
  obtain ⟨s, σ, k, h1, h2, h3, h4⟩ := mvLoop_ok hd hr0 hrn.le (n + 2) 0 _ _ hI (by omega) (by omega) (by omega)
  have h3' : (1 + delta) ^ k * |(sub A n r R).det| ≤ |(sub A n r s.rows).det| := h3
  refine ⟨s.rows, s.inv, ?_, by rw [h2.rows]; simp, ?_, ?_, h2.len, mul_eq_one_comm.1 h2.mul, ?_, ?_⟩
  · rw [maxvol, if_neg (by omega)]
    simp only []
    rw [if_neg (not_lt.2 (hlu.info r _ htk)), pivRows_ok hrn.le hpl hpi, bind_ok, hrw, bind_ok,
      getrows_ok 0 hA.ge hV (by rw [hR]; simp) hRi, bind_ok, dgemmNN_ok hA.ge (by rw [hl]) (by simp), bind_ok,
      rowsToTop_ok _ hrn.le hpl hpi, bind_ok]
    simp only [← hM]
    have h1' : mvLoop delta n r (n + 2) 0 ⟨cm n r fun i j => ∑ t ∈ range r, A.getD (t * n + prm ip r i) 0 * (inv r M).getD (j * r + t) 0,
      inv r M, (List.range n).map (prm ip r), R⟩ = .ok s := h1
    rw [h1', bind_ok]
  · rw [h2.rows]; exact List.Nodup.map σ.injective List.nodup_range
  · intro i hi
    rw [h2.rows] at hi
    obtain ⟨j, hj, rfl⟩ := List.mem_map.1 hi
    exact h2.lt j (by have := List.mem_range.1 hj; omega)
  · refine le_trans ?_ h3'
    exact le_mul_of_one_le_left (abs_nonneg _) (one_le_pow₀ (by linarith))
  · rcases h4 with h4 | h4
    · exact .inl h4
    · right
      have : k = n + 1 := by omega
      rw [← this]; exact h3'

end Proofs

/-! ## Cases -/

/-- Pivots without exchanges. -/
def luId {K : Type} : Nat → List K → Int × List Nat := fun r _ => (0, (List.range r).map (· + 1))

theorem luId_law {K : Type} [Field K] : LuLaw (luId (K := K)) :=
  ⟨fun _ _ _ => le_refl _, fun _ _ _ => by simp [luId], fun r _ _ k hk => by simp [luId, hk]⟩

/-- The inverse matrix. -/
noncomputable def invAny {K : Type} [Field K] (r : Nat) (M : List K) : List K :=
  cm r r fun i j => if h : i < r ∧ j < r then (mat r M)⁻¹ ⟨i, h.1⟩ ⟨j, h.2⟩ else 0

theorem invAny_law {K : Type} [Field K] : InvLaw (invAny (K := K)) := by
  intro r M _
  refine ⟨by rw [invAny, cm_length], fun h => ?_⟩
  have : mat r (invAny r M) = (mat r M)⁻¹ := by
    ext i j
    simp only [mat, Matrix.of_apply, invAny]
    rw [getD_cm _ _ i.2 j.2, dif_pos ⟨i.2, j.2⟩]
  rw [this, Matrix.nonsing_inv_mul _ (isUnit_iff_ne_zero.2 h)]

/-- Three rows, two columns: the columns (1, 0, 2) and (0, 3, 1). The start are the rows 1 and 2. -/
example : ∃ rows V, maxvol (1 / 100 : ℚ) luId invAny [1, 0, 2, 0, 3, 1] 3 2 [0, 0] [0, 0, 0, 0] = .ok (0, rows, V) ∧
    mat 2 V * sub [1, 0, 2, 0, 3, 1] 3 2 rows = 1 := by
  obtain ⟨rows, V, h1, -, -, -, -, h2, -⟩ := maxvol_partial (K := ℚ) (delta := 1 / 100) (by norm_num) luId_law invAny_law (n := 3) (r := 2)
    (A := [1, 0, 2, 0, 3, 1]) (by norm_num) (by norm_num) rfl (rows := [0, 0]) rfl (V := [0, 0, 0, 0]) rfl (by
      have : startRows 3 2 [1, 2] = [1, 2] := by decide
      show (sub [1, 0, 2, 0, 3, 1] 3 2 (startRows 3 2 [1, 2])).det ≠ 0
      rw [this, Matrix.det_fin_two]
      norm_num [sub])
  exact ⟨rows, V, h1, h2⟩

/-! ## Where the code differs -/

/-- A square matrix is never accepted: the pivots of LAPACK count from 1, so the last one is `r`, and the code reads (and writes) entry `r` of an
array of `r` row numbers. -/
theorem maxvol_square_actual {K : Type} [Field K] [LinearOrder K] {delta : K} {lu : Nat → List K → Int × List Nat} (hlu : LuLaw lu)
    (inv : Nat → List K → List K) {r : Nat} (hr : 0 < r) {A : List K} (hA : A.length = r * r) (rows : List Nat) (V : List K) :
    maxvol delta lu inv A r r rows V = .error .oob := by
  have htk : A.take (r * r) = A := by rw [← hA, List.take_length]
  have hstep : ∀ k, k ≤ r → ∀ al : List Nat, al.length = r →
      (∃ al', forN k (fun ii al => do
        let jj ← rd (lu r A).2 ii
        if jj ≠ ii then swapAt al ii jj else .ok al) al = .ok al' ∧ al'.length = r) ∨
      forN k (fun ii al => do
        let jj ← rd (lu r A).2 ii
        if jj ≠ ii then swapAt al ii jj else .ok al) al = .error .oob := by
    intro k hk al hal
    induction k with
    | zero => exact .inl ⟨al, rfl, hal⟩
    | succ k ih =>
      rw [forN_succ]
      rcases ih (by omega) with ⟨al', h1, h2⟩ | h1
      · rw [h1, ebind_ok, rd_getD 0 (by rw [hlu.len r A hA]; omega), bind_ok]
        have := hlu.piv r A hA k (by omega)
        rw [if_pos (by omega)]
        by_cases hp : (lu r A).2.getD k 0 < r
        · left
          refine ⟨(al'.set ((lu r A).2.getD k 0) (al'.getD k 0)).set k (al'.getD ((lu r A).2.getD k 0) 0), ?_, by simp [h2]⟩
          rw [swapAt, rd_getD 0 (by omega), bind_ok, rd_getD 0 (by omega), bind_ok, wr_ok _ (by omega), bind_ok,
            wr_ok _ (by simp; omega)]
        · right; rw [swapAt, rd_oob (by omega)]; rfl
      · right; rw [h1]; rfl
  have hpiv : pivRows r r (lu r A).2 = .error .oob := by
    rw [pivRows]
    obtain ⟨r', rfl⟩ : ∃ r', r = r' + 1 := ⟨r - 1, by omega⟩
    rw [forN_succ]
    rcases hstep r' (by omega) (List.range (r' + 1)) (by simp) with ⟨al', h1, h2⟩ | h1
    · rw [h1, ebind_ok, rd_getD 0 (by rw [hlu.len _ A hA]; omega), bind_ok]
      have := hlu.piv _ A hA r' (by omega)
      rw [if_pos (by omega), swapAt, rd_oob (by omega)]; rfl
    · rw [h1]; rfl
  rw [maxvol, if_neg (by omega)]
  simp only []
  rw [htk, if_neg (not_lt.2 (hlu.info r A hA)), hpiv]; rfl

/-- The column (1, 0) has rank one, but the search starts from row 1 because the pivot 1 is taken for row 1: the submatrix is (0),
LAPACK's inversion fails and leaves the 0, and the call reports success with this row and the inverse (0). Row 0 is never tried. -/
theorem maxvol_singular_counterexample {lu : Nat → List ℚ → Int × List Nat} (hlu : LuLaw lu) {inv : Nat → List ℚ → List ℚ}
    (hinv : inv 1 [0] = [0]) : maxvol (1 / 100) lu inv [1, 0] 2 1 [0] [0] = .ok (0, [1], [0]) := by
  have h1 := hlu.len 1 [1] rfl
  have h2 := hlu.piv 1 [1] rfl 0 (by decide)
  have h3 := hlu.info 1 [1] rfl
  have h4 : (lu 1 [1]).2 = [1] := by
    match hq : (lu 1 [1]).2, h1 with
    | [a], _ =>
      rw [hq] at h2
      simp only [List.getD_cons_zero] at h2
      have : a = 1 := by omega
      rw [this]
  rw [maxvol, if_neg (by decide)]
  have e : List.take (1 * 1) [(1 : ℚ), 0] = [1] := rfl
  simp only [e]
  rw [h4, if_neg (not_lt.2 h3)]
  have e1 : pivRows 2 1 [1] = .ok [1, 0] := rfl
  rw [e1, bind_ok]
  have e2 : (forN 1 (fun ii rows => do
      let v ← rd [1, 0] ii
      wr rows ii v) [0] : C (List Nat)) = .ok [1] := rfl
  rw [e2, bind_ok]
  have e3 : getrows [(1 : ℚ), 0] [0] [1] 2 1 = .ok [0] := rfl
  rw [e3, bind_ok]
  simp only [hinv]
  decide +kernel

end C3.Sk

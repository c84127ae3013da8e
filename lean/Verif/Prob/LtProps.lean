/-
C87: linear transforms: application, inversion, copying and serialization.
-/
import Verif.Prob.LtModel
import Verif.Lin.AlgProps
import Verif.Serial.Props
import Mathlib.LinearAlgebra.Matrix.NonsingularInverse
import Mathlib.LinearAlgebra.Matrix.Block
import Mathlib.Tactic.FieldSimp

namespace C3.Prob

open Finset Matrix

variable {K : Type} [Field K] [LinearOrder K] [IsStrictOrderedRing K]

set_option linter.unusedSectionVars false

/-! ### Specification -/

/-- The matrix in a column-major buffer. -/
def mtx (m n : Nat) (A : List K) : Matrix (Fin m) (Fin n) K := fun i j => A.getD (j.1 * m + i.1) 0

/-- The vector in a buffer. -/
def vct (n : Nat) (x : List K) : Fin n → K := fun i => x.getD i.1 0

/-- The lower triangular part. -/
def low {n : Nat} (M : Matrix (Fin n) (Fin n) K) : Matrix (Fin n) (Fin n) K := fun i j => if j ≤ i then M i j else 0

/-- Contract of LAPACK's `dtrtri("L","N",...)`: if no diagonal entry is zero, the lower triangle is replaced by that of the inverse of the
lower triangle. Nothing is said about the strict upper triangle. -/
def TriInv (trtri : Nat → List K → List K) : Prop :=
  ∀ n A, A.length = n * n → (∀ i : Fin n, mtx n n A i i ≠ 0) →
    (trtri n A).length = n * n ∧ low (mtx n n A) * low (mtx n n (trtri n A)) = 1

/-! ### Lemmas -/

theorem vct_ofFn {n : Nat} (v : Fin n → K) : vct n (List.ofFn v) = v := by
  funext i; simp [vct]

theorem ofFn_vct {n : Nat} {x : List K} (h : x.length = n) : List.ofFn (vct n x) = x := by
  apply List.ext_getElem
  · simp [h]
  · intro i h1 h2
    simp [vct, h2]

theorem map_range_ofFn {n : Nat} (g : Nat → K) : (List.range n).map g = List.ofFn (fun i : Fin n => g i.1) := by
  apply List.ext_getElem <;> simp

theorem sum_fin_range {n : Nat} (g : Nat → K) : ∑ i ∈ range n, g i = ∑ i : Fin n, g i.1 := by
  rw [Finset.sum_range]

theorem blk_ok {n : Nat} {s : List K} (h : s.length = n) : blk n s = .ok s := by
  rw [blk, forN_fill_all (fun i => s.getD i 0) (by simp)]
  · rw [map_range_ofFn]; exact congrArg _ (ofFn_vct h)
  · intro i hi b hb
    rw [rd_getD 0 (by omega), bind_ok]

theorem wr_cm {n m i j : Nat} (g : Nat → Nat → K) (hi : i < n) (hj : j < m) (v : K) :
    wr (cm n m g) (j * n + i) v = .ok (cm n m (fun i' j' => if i' = i ∧ j' = j then v else g i' j')) := by
  rw [wr_ok v (by rw [cm_length]; exact cm_idx_lt hi hj)]
  congr 1
  apply ext_cm (n := n) (m := m) (by simp) (by simp)
  intro a ha b hb
  rw [cm_getElem? _ ha hb]
  by_cases e : a = i ∧ b = j
  · obtain ⟨rfl, rfl⟩ := e
    rw [List.getElem?_set_self (by rw [cm_length]; exact cm_idx_lt hi hj), if_pos ⟨rfl, rfl⟩]
  · rw [if_neg e, List.getElem?_set_ne, cm_getElem? _ ha hb]
    intro e'
    have h1 := congrArg (· % n) e'
    have h2 := congrArg (· / n) e'
    simp only [cm_mod hi, cm_mod ha, cm_div hi, cm_div ha] at h1 h2
    exact e ⟨h1.symm, h2.symm⟩

/-- Setting the part of column `c` above the diagonal to zero. -/
theorem zeroCol {n c : Nat} (g : Nat → Nat → K) (hc : c < n) :
    forN c (fun jj a => wr a (c * n + jj) 0) (cm n n g) = .ok (cm n n (fun i j => if j = c ∧ i < c then 0 else g i j)) := by
  obtain ⟨s, h1, h2⟩ := forN_spec (n := c) (body := fun jj a => wr a (c * n + jj) (0 : K)) (s := cm n n g)
    (I := fun k (a : List K) => a = cm n n (fun i j => if j = c ∧ i < k then 0 else g i j))
    (by apply cm_congr; intro i _ j _; rw [if_neg (by omega)])
    (by
      intro k hk s hs
      subst hs
      refine ⟨_, wr_cm _ (by omega) hc 0, ?_⟩
      apply cm_congr
      intro i _ j _
      by_cases e : i = k ∧ j = c
      · rw [if_pos e, if_pos (by omega)]
      · rw [if_neg e]
        by_cases e' : j = c ∧ i < k
        · rw [if_pos e', if_pos (by omega)]
        · rw [if_neg e', if_neg (by omega)])
  rw [h1, h2]

theorem mtx_cm {n m : Nat} (g : Nat → Nat → K) : mtx n m (cm n m g) = fun i j => g i.1 j.1 := by
  funext i j
  rw [mtx, List.getD_eq_getElem?_getD, cm_getElem? g i.2 j.2]; rfl

theorem eq_cm_getD {n m : Nat} {a : List K} (h : a.length = n * m) : a = cm n m (fun i j => a.getD (j * n + i) 0) := by
  conv_lhs => rw [eq_cm 0 h]
  rfl

theorem ltNeg_ok {n : Nat} {b c A : List K} (hb : b.length = n) (hc : c.length = n) (hA : A.length = n * n) :
    ∃ A', ltNeg n b c A = .ok (List.ofFn (-vct n b), A') ∧ A'.length = n * n ∧ mtx n n A' = low (mtx n n A) := by
  have hA' := eq_cm_getD hA
  set g : Nat → Nat → K := fun i j => A.getD (j * n + i) 0 with hg
  obtain ⟨s, h1, h2, h3, h4⟩ := forN_spec (n := n) (s := (c, A))
    (body := fun ii (st : List K × List K) => do
      let v ← rd b ii
      let c ← wr st.1 ii (-v)
      let a ← forN ii (fun jj a => wr a (ii * n + jj) 0) st.2
      pure (c, a))
    (I := fun k (st : List K × List K) => st.1.length = n ∧ (∀ i < k, st.1.getD i 0 = -b.getD i 0) ∧
      st.2 = cm n n (fun i j => if j < k ∧ i < j then 0 else g i j))
    ⟨hc, by omega, by
      dsimp only
      conv_lhs => rw [hA']
      apply cm_congr; intro i _ j _; rw [if_neg (by omega)]⟩
    (by
      rintro k hk ⟨s1, s2⟩ ⟨i1, i2, i3⟩
      dsimp only at i1 i2 i3
      subst i3
      refine ⟨(s1.set k (-b.getD k 0), cm n n (fun i j => if j = k ∧ i < k then 0 else if j < k ∧ i < j then 0 else g i j)), ?_, ?_, ?_, ?_⟩
      · dsimp only
        rw [rd_getD 0 (by omega), bind_ok, wr_ok _ (by omega), bind_ok, zeroCol _ hk, bind_ok]; rfl
      · simp [i1]
      · intro i hi
        dsimp only
        by_cases e : i = k
        · subst e; simp [i1, hk]
        · rw [List.getD_eq_getElem?_getD, List.getElem?_set_ne (by omega), ← List.getD_eq_getElem?_getD]
          exact i2 i (by omega)
      · dsimp only
        apply cm_congr
        intro i _ j _
        by_cases e : j = k ∧ i < k
        · rw [if_pos e, if_pos (by omega)]
        · rw [if_neg e]
          by_cases e' : j < k ∧ i < j
          · rw [if_pos e', if_pos (by omega)]
          · rw [if_neg e', if_neg (by omega)])
  refine ⟨s.2, ?_, by rw [h4]; simp, ?_⟩
  · rw [ltNeg, h1]
    have : s.1 = List.ofFn (-vct n b) := by
      rw [← ofFn_vct h2]
      congr 1
      funext i
      exact h3 i.1 i.2
    rw [← this]
  · rw [h4, mtx_cm]
    funext i j
    simp only [low]
    by_cases e : j ≤ i
    · rw [if_neg (by have : j.1 ≤ i.1 := e; omega), if_pos e]; rfl
    · rw [if_pos ⟨j.2, by have : ¬ j.1 ≤ i.1 := e; omega⟩, if_neg e]

theorem dtrmvL_ok {n : Nat} {A x : List K} (hA : A.length = n * n) (hx : x.length = n) :
    dtrmvL n A x = .ok (List.ofFn (low (mtx n n A) *ᵥ vct n x)) := by
  obtain ⟨b, h1, h2, h3, _⟩ := forN_scatter (n := n) (a := x) (idx := fun k => n - 1 - k)
    (g := fun k => ∑ j ∈ range (n - k), A.getD (j * n + (n - 1 - k)) 0 * x.getD j 0)
    (body := fun k x => do
      let s ← forN (n - k) (fun j s => do
        let a ← rd A (j * n + (n - 1 - k))
        let v ← rd x j
        pure (s + a * v)) 0
      wr x (n - 1 - k) s)
    (fun i hi => by omega) (fun i hi j hj h => by omega)
    (by
      intro k hk b hb hu _
      rw [forN_sum (fun j => A.getD (j * n + (n - 1 - k)) 0 * x.getD j 0), bind_ok, zero_add]
      intro j hj s
      rw [rd_getD 0 (by rw [hA]; exact cm_idx_lt (by omega) (by omega)), bind_ok, rd_getD 0 (by omega), bind_ok]
      have : b.getD j 0 = x.getD j 0 := by
        rw [List.getD_eq_getElem?_getD, List.getD_eq_getElem?_getD, hu j (by intro m hm; omega)]
      rw [this]; rfl)
  rw [dtrmvL, h1]
  congr 1
  rw [← ofFn_vct (by omega : b.length = n)]
  congr 1
  funext i
  have := h3 (n - 1 - i.1) (by have := i.2; omega)
  have e : n - 1 - (n - 1 - i.1) = i.1 := by have := i.2; omega
  have e' : n - (n - 1 - i.1) = i.1 + 1 := by have := i.2; omega
  rw [e, e'] at this
  rw [vct, List.getD_eq_getElem?_getD, this, Option.getD_some, mulVec, dotProduct]
  simp only [low, mtx, vct, Fin.le_def]
  rw [← sum_fin_range (n := n) (fun j => (if j ≤ i.1 then A.getD (j * n + i.1) 0 else 0) * x.getD j 0)]
  rw [← Finset.sum_subset (s₁ := range (i.1 + 1)) (s₂ := range n)]
  · apply sum_congr rfl
    intro j hj
    rw [if_pos (by have := mem_range.1 hj; omega)]
  · intro j hj; have := mem_range.1 hj; have := i.2; exact mem_range.2 (by omega)
  · intro j _ hj
    have : ¬ j ≤ i.1 := by intro h; exact hj (mem_range.2 (by omega))
    rw [if_neg this, zero_mul]

/-! ### C87: application and inversion -/

/-- C87: applying a transform computes `A x + b`. -/
theorem ltApply_ok {n m : Nat} {A x b : List K} (hA : A.length = m * n) (hx : x.length = n) (hb : b.length = m) :
    ltApply n m A x b = .ok (List.ofFn (mtx m n A *ᵥ vct n x + vct m b)) := by
  rw [ltApply, blk_ok hb, bind_ok, C3.Lin.forN_inplace hb (fun i v => (∑ j ∈ range n, A.getD (j * m + i) 0 * x.getD j 0) + v)]
  · rw [map_range_ofFn]
    congr 2
    funext i
    rw [Pi.add_apply, mulVec, dotProduct, sum_fin_range]
    rfl
  · intro i hi c hc e
    rw [forN_sum (fun j => A.getD (j * m + i) 0 * x.getD j 0), bind_ok, zero_add, rd_getD 0 (by omega), bind_ok, e]
    intro j hj s
    rw [rd_getD 0 (by rw [hA]; exact cm_idx_lt hi hj), bind_ok, rd_getD 0 (by omega), bind_ok]; rfl

/-- A square transform marked as lower triangular, not yet inverted, whose determinant field is a nonzero number. -/
structure LtOk (n : Nat) (lt : LinT K) (dt : K) : Prop where
  din : lt.dimin = n
  dout : lt.dimout = n
  lA : lt.A.length = n * n
  lb : lt.b.length = n
  mt : lt.mt = some .LT
  hdet : lt.det = some dt
  ne : dt ≠ 0
  diag : ∀ i : Fin n, mtx n n lt.A i i ≠ 0

/-- C87: inverting a lower triangular transform stores a matrix and an offset: the inverse of the lower triangle and minus its product with the
offset; a second inversion changes nothing. -/
theorem ltInvert_ok {trtri : Nat → List K → List K} (ht : TriInv trtri) {n : Nat} {lt : LinT K} {det : K}
    (h : LtOk n lt det) (hi : lt.inv = none) :
    ∃ Ai bi, ltInvert trtri lt = .ok { lt with inv := some (Ai, bi), detinv := some (1 / det), mti := some .LT } ∧
      Ai.length = n * n ∧ bi.length = n ∧ low (mtx n n lt.A) * mtx n n Ai = 1 ∧ vct n bi = -(mtx n n Ai *ᵥ vct n lt.b) := by
  obtain ⟨hl, hm⟩ := ht n lt.A h.lA h.diag
  obtain ⟨A', e1, e2, e3⟩ := ltNeg_ok (n := n) (b := lt.b) (c := List.replicate n 0) (A := trtri n lt.A) h.lb (by simp) hl
  refine ⟨A', List.ofFn (low (mtx n n A') *ᵥ (-vct n lt.b)), ?_, e2, by simp, by rw [e3]; exact hm, ?_⟩
  · unfold ltInvert
    rw [hi]
    dsimp only
    rw [h.mt, field, pure_eq_ok, bind_ok, if_pos rfl, h.din, h.dout, blk_ok h.lA, bind_ok]
    rw [e1, bind_ok]
    dsimp only
    rw [dtrmvL_ok e2 (by simp), bind_ok, h.hdet, field, pure_eq_ok, bind_ok, C3.Lin.dv_ok h.ne, bind_ok, vct_ofFn]
    rfl
  · rw [vct_ofFn, mulVec_neg]
    have : low (mtx n n A') = mtx n n A' := by
      rw [e3]; funext i j; simp only [low]; split <;> rfl
    rw [this]

theorem ltInvert_again (trtri : Nat → List K → List K) {lt : LinT K} {i : List K × List K} (h : lt.inv = some i) :
    ltInvert trtri lt = .ok lt := by
  unfold ltInvert; rw [h]; rfl

/-- C87: for a lower triangular matrix the stored inverse undoes the transform, and the transform undoes the stored inverse. -/
theorem lt_roundtrip {trtri : Nat → List K → List K} (ht : TriInv trtri) {n : Nat} {lt : LinT K} {det : K}
    (h : LtOk n lt det) (hi : lt.inv = none) (hlow : low (mtx n n lt.A) = mtx n n lt.A) {x : List K} (hx : x.length = n) :
    ∃ lt' Ai bi, ltInvert trtri lt = .ok lt' ∧ lt'.inv = some (Ai, bi) ∧ lt'.A = lt.A ∧ lt'.b = lt.b ∧
      (ltApply n n lt.A x lt.b >>= fun y => ltApply n n Ai y bi) = .ok x ∧
      (ltApply n n Ai x bi >>= fun y => ltApply n n lt.A y lt.b) = .ok x := by
  obtain ⟨Ai, bi, h1, h2, h3, h4, h5⟩ := ltInvert_ok ht h hi
  rw [hlow] at h4
  have h4' := mul_eq_one_comm.1 h4
  refine ⟨_, Ai, bi, h1, rfl, rfl, rfl, ?_, ?_⟩
  · rw [ltApply_ok h.lA hx h.lb, bind_ok, ltApply_ok h2 (by simp) h3, vct_ofFn, h5, mulVec_add, mulVec_mulVec, h4', one_mulVec,
      add_neg_cancel_right, ofFn_vct hx]
  · rw [ltApply_ok h2 hx h3, bind_ok, ltApply_ok h.lA (by simp) h.lb, vct_ofFn, h5, mulVec_add, mulVec_mulVec, h4, one_mulVec, mulVec_neg,
      mulVec_mulVec, h4, one_mulVec, neg_add_cancel_right, ofFn_vct hx]

/-! ### Copies -/

/-- C87: a copy of a transform has the same matrix, offset, determinant and inverse. -/
theorem ltCopy_ok {lt : LinT K} {det : K} (hA : lt.A.length = lt.dimin * lt.dimout) (hb : lt.b.length = lt.dimout)
    (hd : lt.det = some det)
    (hi : ∀ i, lt.inv = some i → i.1.length = lt.dimin * lt.dimout ∧ i.2.length = lt.dimin ∧ lt.detinv.isSome)
    (hi' : lt.inv = none → lt.detinv = none) :
    ltCopy lt = .ok { lt with mt := none, mti := none } := by
  unfold ltCopy
  rw [hd, field, pure_eq_ok, bind_ok, ltAlloc, blkOpt, blk_ok hA, bind_ok, blkOpt, blk_ok hb, bind_ok, pure_eq_ok, bind_ok]
  obtain ⟨A, b, det', inv, di, din, dout, mt, mti⟩ := lt
  dsimp only at hA hb hd hi hi' ⊢
  subst hd
  cases inv with
  | none =>
    dsimp only
    rw [hi' rfl]; rfl
  | some i =>
    obtain ⟨h1, h2, h3⟩ := hi i rfl
    dsimp only
    rw [blk_ok h1, bind_ok, blk_ok h2, bind_ok]
    obtain ⟨v, rfl⟩ := Option.isSome_iff_exists.1 h3
    rfl

/-- C87: the type of the matrix is not copied (nor set by `linear_transform_alloc`), so that inverting the copy of a transform that was not
inverted before reads an uninitialised field. -/
theorem copy_invert_counterexample (trtri : Nat → List K → List K) {lt : LinT K} {det : K} (hA : lt.A.length = lt.dimin * lt.dimout)
    (hb : lt.b.length = lt.dimout) (hd : lt.det = some det) (hi : lt.inv = none) (hdi : lt.detinv = none) :
    (ltCopy lt >>= ltInvert trtri) = .error .ub := by
  rw [ltCopy_ok hA hb hd (by rw [hi]; intro i h; cases h) (fun _ => hdi), bind_ok]
  unfold ltInvert
  dsimp only
  rw [hi]; rfl

/-- C87: a transform made by `linear_transform_alloc` with a matrix cannot be inverted: the type of its matrix is never set. -/
theorem alloc_invert_counterexample (trtri : Nat → List K → List K) {n : Nat} {A b : List K} (hA : A.length = n * n) (hb : b.length = n)
    (det : K) : (ltAlloc n n (some A) (some b) det >>= ltInvert trtri) = .error .ub := by
  rw [ltAlloc, blkOpt, blk_ok hA, bind_ok, blkOpt, blk_ok hb, bind_ok, pure_eq_ok, bind_ok]; rfl

/-- A function that meets the contract on the matrices used in the examples (dimensions up to two). -/
def tri2 (n : Nat) (A : List ℚ) : List ℚ :=
  if n = 2 then [1 / A.getD 0 0, -A.getD 1 0 / (A.getD 0 0 * A.getD 3 0), A.getD 2 0, 1 / A.getD 3 0] else A

/-- C87: nothing checks that a matrix marked as lower triangular is one. With an entry above the diagonal the inverse does not undo the
transform: `(1,1)` is sent to `(2,1)` and back to `(2,1)`. -/
theorem lt_upper_counterexample :
    (do
      let lt ← ltInvert tri2 ⟨[1, 0, 1, 1], [0, 0], some 1, none, none, 2, 2, some .LT, none⟩
      let iv ← ptr lt.inv
      let y ← ltApply 2 2 lt.A [1, 1] lt.b
      ltApply 2 2 iv.1 y iv.2) = .ok [2, 1] := by decide +kernel

/-- The hypotheses of `ltInvert_ok` and `lt_roundtrip`: the transform `(x, y) ↦ (2x + 1, x + 4y + 3)`. -/
example : LtOk 2 (⟨[2, 1, 0, 4], [1, 3], some 8, none, none, 2, 2, some .LT, none⟩ : LinT ℚ) 8 ∧
    low (mtx 2 2 ([2, 1, 0, 4] : List ℚ)) = mtx 2 2 [2, 1, 0, 4] ∧
    (do
      let lt ← ltInvert tri2 ⟨[2, 1, 0, 4], [1, 3], some 8, none, none, 2, 2, some .LT, none⟩
      let iv ← ptr lt.inv
      let y ← ltApply 2 2 lt.A [5, 7] lt.b
      let x ← ltApply 2 2 iv.1 y iv.2
      pure (y, x) : C (List ℚ × List ℚ)) = .ok ([11, 36], [5, 7]) :=
  ⟨⟨rfl, rfl, rfl, rfl, rfl, rfl, by norm_num, by decide +kernel⟩, by decide +kernel, by decide +kernel⟩

/-- The contract can be met in every dimension: the lower triangle of the inverse in Mathlib's sense. -/
noncomputable def triRef (n : Nat) (A : List K) : List K :=
  cm n n fun i j => if h : i < n ∧ j < n then ((low (mtx n n A))⁻¹ : Matrix (Fin n) (Fin n) K) ⟨i, h.1⟩ ⟨j, h.2⟩ else 0

theorem low_det {n : Nat} (M : Matrix (Fin n) (Fin n) K) : (low M).det = ∏ i, M i i := by
  rw [det_of_isLowerTriangular]
  · apply Finset.prod_congr rfl
    intro i _; simp [low]
  · intro i j h
    simp only [low]
    rw [if_neg]
    intro hle
    exact absurd hle (not_le.2 h)

theorem triInv_triRef : TriInv (triRef (K := K)) := by
  intro n A _ hd
  have hdet : (low (mtx n n A)).det ≠ 0 := by
    rw [low_det]; exact Finset.prod_ne_zero_iff.2 fun i _ => hd i
  have hu : IsUnit (low (mtx n n A)).det := isUnit_iff_ne_zero.2 hdet
  refine ⟨by simp [triRef], ?_⟩
  have hm : mtx n n (triRef n A) = (low (mtx n n A))⁻¹ := by
    rw [triRef, mtx_cm]; funext i j; simp
  have hl : low (mtx n n (triRef n A)) = mtx n n (triRef n A) := by
    rw [hm]
    have : BlockTriangular (low (mtx n n A))⁻¹ OrderDual.toDual := by
      have := invertibleOfIsUnitDet _ hu
      apply blockTriangular_inv_of_blockTriangular
      intro i j h
      simp only [low]
      rw [if_neg]
      intro hle
      exact absurd hle (not_le.2 h)
    funext i j
    simp only [low]
    split
    · rfl
    · rename_i h
      exact (this (by simpa using h)).symm
  rw [hl, hm, mul_nonsing_inv _ hu]

end C3.Prob

/-
Singular value decompositions of rectangular matrices: the contract, the proof that it can be met, and what the truncated
decomposition (model in Round/Model.lean) returns.
-/
import Verif.Round.Inst

set_option linter.unusedSectionVars false

namespace C3.Tt
open Finset C3.Ft C3.Round

section svd
variable {m n : Nat}

local notation "𝔼" n => EuclideanSpace ℝ (Fin n)

/-- Singular value decomposition of a linear map between spaces of different dimension. -/
theorem exists_svdR (T : (𝔼 n) →ₗ[ℝ] 𝔼 m) : ∃ (u : OrthonormalBasis (Fin m) ℝ (𝔼 m)) (v : OrthonormalBasis (Fin n) ℝ (𝔼 n))
    (σ : Fin n → ℝ), (∀ i, 0 ≤ σ i) ∧ Antitone σ ∧
      ∀ i : Fin n, T (v i) = if h : i.1 < m then σ i • u ⟨i.1, h⟩ else 0 := by
  have hn : Module.finrank ℝ (𝔼 n) = n := by simp
  have hT := T.isPositive_adjoint_comp_self
  have hS := hT.isSymmetric
  let v := hS.eigenvectorBasis hn
  let lam := hS.eigenvalues hn
  have hlam : ∀ i, 0 ≤ lam i := fun i => hT.nonneg_eigenvalues hn i
  have hin : ∀ i j, inner ℝ (T (v i)) (T (v j)) = if i = j then lam i else 0 := by
    intro i j
    rw [← LinearMap.adjoint_inner_right]
    have : (LinearMap.adjoint T) (T (v j)) = lam j • v j := hS.apply_eigenvectorBasis hn j
    rw [this, inner_smul_right, v.inner_eq_ite]
    split
    · next h => subst h; ring
    · ring
  let σ : Fin n → ℝ := fun i => Real.sqrt (lam i)
  have hσ : ∀ i, σ i * σ i = lam i := fun i => Real.mul_self_sqrt (hlam i)
  have hσ0 : ∀ i, 0 ≤ σ i := fun i => Real.sqrt_nonneg _
  have hanti : Antitone σ := fun i j hij => Real.sqrt_le_sqrt (hS.eigenvalues_antitone hn hij)
  have hno : ∀ i j, σ i ≠ 0 → inner ℝ ((σ i)⁻¹ • T (v i)) ((σ j)⁻¹ • T (v j)) = if i = j then (1 : ℝ) else 0 := by
    intro i j hi
    simp only [real_inner_smul_left, real_inner_smul_right, hin]
    by_cases h : i = j
    · subst h
      rw [if_pos rfl, if_pos rfl, ← hσ]
      field_simp
    · rw [if_neg h, if_neg h]; ring
  have hz : ∀ i, σ i = 0 → T (v i) = 0 := by
    intro i hi
    have := hin i i
    rw [if_pos rfl, ← hσ, hi, mul_zero] at this
    exact inner_self_eq_zero.1 this
  -- beyond the dimension of the range the singular values vanish
  have hbig : ∀ i : Fin n, m ≤ i.1 → σ i = 0 := by
    intro i hi
    by_contra h0
    have hpos : ∀ j : Fin n, j ≤ i → σ j ≠ 0 := fun j hj => by
      have h1 := hanti hj
      have h2 := lt_of_le_of_ne (hσ0 i) (Ne.symm h0)
      exact ne_of_gt (lt_of_lt_of_le h2 h1)
    let f : Fin (i.1 + 1) → 𝔼 m := fun j => (σ ⟨j.1, by omega⟩)⁻¹ • T (v ⟨j.1, by omega⟩)
    have hf : Orthonormal ℝ f := by
      rw [orthonormal_iff_ite]
      intro a b
      have := hno ⟨a.1, by omega⟩ ⟨b.1, by omega⟩ (hpos _ (by
        show a.1 ≤ i.1
        omega))
      rw [this]
      simp [Fin.ext_iff]
    have hc := hf.linearIndependent.fintype_card_le_finrank
    simp at hc
    omega
  let g : Fin m → 𝔼 m := fun i => if h : i.1 < n then (σ ⟨i.1, h⟩)⁻¹ • T (v ⟨i.1, h⟩) else 0
  let s : Set (Fin m) := {i | ∃ h : i.1 < n, σ ⟨i.1, h⟩ ≠ 0}
  have ho : Orthonormal ℝ (s.restrict g) := by
    rw [orthonormal_iff_ite]
    rintro ⟨i, hi, hi'⟩ ⟨j, hj, hj'⟩
    change inner ℝ (g i) (g j) = _
    simp only [g, hi, hj, dif_pos]
    rw [hno _ _ hi']
    simp [Fin.ext_iff]
  obtain ⟨u, hu⟩ := Orthonormal.exists_orthonormalBasis_extension_of_card_eq (by simp) ho
  refine ⟨u, v, σ, hσ0, hanti, fun i => ?_⟩
  by_cases h : i.1 < m
  · rw [dif_pos h]
    by_cases hi : σ i = 0
    · rw [hi, zero_smul, hz i hi]
    · rw [hu ⟨i.1, h⟩ ⟨i.2, hi⟩]
      simp only [g, i.2, dif_pos]
      rw [smul_smul, mul_inv_cancel₀ hi, one_smul]
  · rw [dif_neg h]
    exact hz i (hbig i (by omega))

end svd

/-- A decomposition `M = u diag(s) vt` of an `m × n` matrix in column-major storage, with orthonormal columns of `u`,
orthonormal rows of `vt`, and nonnegative decreasing `s`. -/
structure SvdR (m n : Nat) (M : List ℝ) (w : Svd) : Prop where
  lu : w.u.length = m * m
  ls : w.s.length = min m n
  lvt : w.vt.length = n * n
  prod : ∀ i < m, ∀ j < n, ent m M i j = ∑ p ∈ range (min m n), ent m w.u i p * (w.s.getD p 0 * ent n w.vt p j)
  uon : ∀ p < m, ∀ q < m, ∑ i ∈ range m, ent m w.u i p * ent m w.u i q = if p = q then 1 else 0
  von : ∀ p < n, ∀ q < n, ∑ j ∈ range n, ent n w.vt p j * ent n w.vt q j = if p = q then 1 else 0
  nonneg : ∀ p < min m n, 0 ≤ w.s.getD p 0
  anti : ∀ p q, p ≤ q → q < min m n → w.s.getD q 0 ≤ w.s.getD p 0

/-- Contract of the singular value decomposition (LAPACK `dgesdd`). -/
def SvdRLaw (svd : Nat → Nat → List ℝ → C Svd) : Prop :=
  ∀ m n M, 0 < m → 0 < n → M.length = m * n → ∃ w, svd m n M = .ok w ∧ SvdR m n M w

theorem exists_svdRGood (m n : Nat) (M : List ℝ) : ∃ w, SvdR m n M w := by
  let A : Matrix (Fin m) (Fin n) ℝ := fun i j => ent m M i j
  let T : EuclideanSpace ℝ (Fin n) →ₗ[ℝ] EuclideanSpace ℝ (Fin m) := Matrix.toEuclideanLin A
  obtain ⟨u, v, σ, h1, h2, h3⟩ := exists_svdR T
  let U : Nat → Nat → ℝ := fun i p => if h : i < m ∧ p < m then u ⟨p, h.2⟩ ⟨i, h.1⟩ else 0
  let V : Nat → Nat → ℝ := fun p j => if h : p < n ∧ j < n then v ⟨p, h.1⟩ ⟨j, h.2⟩ else 0
  let S : Nat → ℝ := fun p => if h : p < n then σ ⟨p, h⟩ else 0
  have eU : ∀ i < m, ∀ p < m, ent m (cm m m U) i p = U i p := fun i hi p hp => getD_cm _ _ hi hp
  have eV : ∀ i < n, ∀ p < n, ent n (cm n n V) i p = V i p := fun i hi p hp => getD_cm _ _ hi hp
  have eS : ∀ p < min m n, ((List.range (min m n)).map S).getD p 0 = S p := fun p hp => by
    rw [List.getD_eq_getElem?_getD, List.getElem?_map, List.getElem?_range hp]; rfl
  refine ⟨⟨cm m m U, (List.range (min m n)).map S, cm n n V⟩, by simp [cm], by simp, by simp [cm], ?_, ?_, ?_, ?_, ?_⟩
  · intro i hi j hj
    dsimp only
    have hs : ∀ p ∈ range (min m n), ent m (cm m m U) i p * (((List.range (min m n)).map S).getD p 0 * ent n (cm n n V) p j)
        = U i p * (S p * V p j) := fun p hp => by
      have hp := mem_range.1 hp
      rw [eU i hi p (by omega), eS p hp, eV p (by omega) j hj]
    rw [sum_congr rfl hs]
    have e1 : T (EuclideanSpace.single ⟨j, hj⟩ 1)
        = ∑ p : Fin n, v p ⟨j, hj⟩ • (if h : p.1 < m then σ p • u ⟨p.1, h⟩ else 0) := by
      conv_lhs => rw [← v.sum_repr (EuclideanSpace.single ⟨j, hj⟩ 1), map_sum]
      refine sum_congr rfl fun p _ => ?_
      rw [map_smul, h3, v.repr_apply_apply]
      congr 1
      rw [EuclideanSpace.inner_single_right]
      simp
    have e2 : T (EuclideanSpace.single ⟨j, hj⟩ 1) ⟨i, hi⟩ = ent m M i j := by
      show Matrix.mulVec A (EuclideanSpace.single ⟨j, hj⟩ (1 : ℝ)).ofLp ⟨i, hi⟩ = _
      rw [PiLp.ofLp_single, Matrix.mulVec_single_one]
      rfl
    rw [← e2, e1]
    simp only [WithLp.ofLp_sum, Finset.sum_apply, PiLp.smul_apply, smul_eq_mul]
    have e3 : ∑ p ∈ range (min m n), U i p * (S p * V p j) = ∑ p ∈ range n, U i p * (S p * V p j) := by
      refine sum_subset (by simp) fun p hp hp' => ?_
      have hp := mem_range.1 hp
      have hp' : ¬ p < min m n := by simpa using hp'
      simp only [U]
      rw [dif_neg (by omega), zero_mul]
    rw [e3, sum_range]
    refine sum_congr rfl fun p _ => ?_
    by_cases h : p.1 < m
    · simp only [U, S, V, hi, hj, h, p.2, and_self, dif_pos, PiLp.smul_apply, smul_eq_mul]
      ring
    · simp only [U, S, V, hi, hj, h, p.2, and_self, and_false, dif_pos, dif_neg, not_false_eq_true]
      simp
  · intro p hp q hq
    dsimp only
    have hs : ∀ i ∈ range m, ent m (cm m m U) i p * ent m (cm m m U) i q = U i p * U i q := fun i hi => by
      have hi := mem_range.1 hi
      rw [eU i hi p hp, eU i hi q hq]
    rw [sum_congr rfl hs, sum_range]
    have := u.inner_eq_ite ⟨p, hp⟩ ⟨q, hq⟩
    rw [PiLp.inner_apply] at this
    simp only [Fin.mk.injEq] at this
    rw [← this]
    refine sum_congr rfl fun i _ => ?_
    simp [U, hp, hq, mul_comm]
  · intro p hp q hq
    dsimp only
    have hs : ∀ i ∈ range n, ent n (cm n n V) p i * ent n (cm n n V) q i = V p i * V q i := fun i hi => by
      have hi := mem_range.1 hi
      rw [eV p hp i hi, eV q hq i hi]
    rw [sum_congr rfl hs, sum_range]
    have := v.inner_eq_ite ⟨p, hp⟩ ⟨q, hq⟩
    rw [PiLp.inner_apply] at this
    simp only [Fin.mk.injEq] at this
    rw [← this]
    refine sum_congr rfl fun i _ => ?_
    simp [V, hp, hq, mul_comm]
  · intro p hp
    dsimp only
    rw [eS p hp]
    simp only [S, show p < n by omega, dif_pos]
    exact h1 _
  · intro p q hpq hq
    dsimp only
    rw [eS p (by omega), eS q hq]
    simp only [S, show q < n by omega, show p < n by omega, dif_pos]
    exact h2 (by simpa using hpq)

open Classical in
/-- Some singular value decomposition of every matrix. -/
noncomputable def svdRAny (m n : Nat) (M : List ℝ) : C Svd := .ok (exists_svdRGood m n M).choose

theorem svdRAny_law : SvdRLaw svdRAny := fun m n M _ _ _ => ⟨_, rfl, (exists_svdRGood m n M).choose_spec⟩

/-- What the truncated decomposition returns: the leading parts of an exact decomposition `w`. -/
structure TsvdR (m n : Nat) (w : Svd) (delta : ℝ) (t : Tsvd) : Prop where
  rank : RankSpec (min m n) w.s delta t.rank
  lu : t.u.length = m * t.rank
  ls : t.s.length = t.rank
  lvt : t.vt.length = t.rank * n
  u : ∀ i < m, ∀ p < t.rank, ent m t.u i p = ent m w.u i p
  s : ∀ p < t.rank, t.s.getD p 0 = w.s.getD p 0
  vt : ∀ p < t.rank, ∀ j < n, ent t.rank t.vt p j = ent n w.vt p j

theorem truncSvdR_ok {svd : Nat → Nat → List ℝ → C Svd} (hsvd : SvdRLaw svd) {m n : Nat} {M : List ℝ} (hm : 0 < m) (hn : 0 < n)
    (hM : M.length = m * n) (delta : ℝ) :
    ∃ w t, truncSvd svd m n M delta = .ok t ∧ SvdR m n M w ∧ TsvdR m n w delta t := by
  obtain ⟨w, h1, h2⟩ := hsvd m n M hm hn hM
  obtain ⟨r, h3, h4⟩ := svdRank_spec (s := w.s) (delta := delta) (n := min m n) (by omega) (le_of_eq h2.ls.symm)
  have hr := h4.le
  have hle : r * m ≤ m * m := Nat.mul_le_mul_right _ (by omega)
  have e1 : collect (r * m) (fun i => rd w.u i) = .ok ((List.range (r * m)).map (fun i => w.u.getD i 0)) :=
    collect_ok _ (fun i hi => rd_getD 0 (by rw [h2.lu]; omega))
  have e2 : forN n (fun ii => forN r (fun jj vt => do
      let x ← rd w.vt (ii * n + jj)
      wr vt (ii * r + jj) x)) (List.replicate (r * n) 0) = .ok (cm r n (fun p j => ent n w.vt p j)) := by
    refine forN_fill_cm _ (by simp) ?_
    intro j hj p hp b hb
    rw [rd_getD 0 (by rw [h2.lvt]; exact cm_idx_lt (by omega) hj), bind_ok]
    rfl
  have e3 : collect r (fun i => rd w.s i) = .ok ((List.range r).map (fun i => w.s.getD i 0)) :=
    collect_ok _ (fun i hi => rd_getD 0 (by rw [h2.ls]; omega))
  refine ⟨w, ⟨r, (List.range (r * m)).map (fun i => w.u.getD i 0), (List.range r).map (fun i => w.s.getD i 0),
    cm r n (fun p j => ent n w.vt p j)⟩, ?_, h2, ?_⟩
  · rw [truncSvd, h1, bind_ok, h3, bind_ok, e1, bind_ok, e2, bind_ok, e3, bind_ok, pure_eq_ok]
  · refine ⟨h4, by simp [Nat.mul_comm], by simp, by simp, ?_, ?_, ?_⟩
    · intro i hi p hp
      dsimp only at hp ⊢
      rw [ent, ent]
      have := cm_idx_lt hi hp
      rw [List.getD_eq_getElem?_getD, List.getElem?_map, List.getElem?_range (by rw [Nat.mul_comm r]; exact this)]
      rfl
    · intro p hp
      dsimp only at hp ⊢
      rw [List.getD_eq_getElem?_getD, List.getElem?_map, List.getElem?_range hp]
      rfl
    · intro p hp j hj
      dsimp only at hp ⊢
      rw [ent, getD_cm _ _ hp hj]

end C3.Tt

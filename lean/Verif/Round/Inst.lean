/-
The contracts used by the rounding theorems can be met: singular value decompositions exist for every square matrix, and for
square-summable sequences the Householder sweeps modelled in Verif/Qr (threshold 0) are the required orthogonal
decompositions.
-/
import Verif.Round.Orthor
import Verif.Qr.Props
import Mathlib.Analysis.InnerProductSpace.l2Space
import Mathlib.Analysis.InnerProductSpace.Spectrum
import Mathlib.Analysis.InnerProductSpace.Adjoint
import Mathlib.Analysis.InnerProductSpace.Positive

set_option linter.unusedSectionVars false

namespace C3.Round
open Finset C3.Ft

section svd
variable {n : Nat}

local notation "𝔼" n => EuclideanSpace ℝ (Fin n)

/-- Singular value decomposition of a linear map. -/
theorem exists_svd (T : (𝔼 n) →ₗ[ℝ] 𝔼 n) : ∃ (u v : OrthonormalBasis (Fin n) ℝ (𝔼 n)) (σ : Fin n → ℝ),
    (∀ i, 0 ≤ σ i) ∧ Antitone σ ∧ ∀ i, T (v i) = σ i • u i := by
  have hn : Module.finrank ℝ (𝔼 n) = n := by simp
  have hT := T.isPositive_adjoint_comp_self
  have hS := hT.isSymmetric
  let v := hS.eigenvectorBasis hn
  let lam := hS.eigenvalues hn
  have hlam : ∀ i, 0 ≤ lam i := fun i => hT.nonneg_eigenvalues hn i
  have hin : ∀ i j, inner ℝ (T (v i)) (T (v j)) = if i = j then lam i else 0 := by
    intro i j
    rw [← LinearMap.adjoint_inner_right]
    have : (LinearMap.adjoint T) (T (v j)) = lam j • v j := hS.apply_eigenvectorBasis hn j
    rw [this, inner_smul_right, v.inner_eq_ite]
    split
    · next h => subst h; ring
    · ring
  let σ : Fin n → ℝ := fun i => Real.sqrt (lam i)
  have hσ : ∀ i, σ i * σ i = lam i := fun i => Real.mul_self_sqrt (hlam i)
  let s : Set (Fin n) := {i | σ i ≠ 0}
  have ho : Orthonormal ℝ (s.restrict fun i => (σ i)⁻¹ • T (v i)) := by
    rw [orthonormal_iff_ite]
    rintro ⟨i, hi⟩ ⟨j, hj⟩
    have hi : σ i ≠ 0 := hi
    change inner ℝ ((σ i)⁻¹ • T (v i)) ((σ j)⁻¹ • T (v j)) = _
    simp only [real_inner_smul_left, real_inner_smul_right, hin, Subtype.mk.injEq]
    by_cases h : i = j
    · subst h
      rw [if_pos rfl, if_pos rfl, ← hσ]
      field_simp
    · rw [if_neg h, if_neg h]; ring
  obtain ⟨u, hu⟩ := Orthonormal.exists_orthonormalBasis_extension_of_card_eq (by simp) ho
  refine ⟨u, v, σ, fun i => Real.sqrt_nonneg _, fun i j hij => Real.sqrt_le_sqrt (hS.eigenvalues_antitone hn hij), fun i => ?_⟩
  by_cases hi : σ i = 0
  · rw [hi, zero_smul]
    have := hin i i
    rw [if_pos rfl, ← hσ, hi, mul_zero] at this
    exact inner_self_eq_zero.1 this
  · rw [hu i hi, smul_smul, mul_inv_cancel₀ hi, one_smul]

end svd

theorem exists_svdGood {n : Nat} {M : List ℝ} (hM : M.length = n * n) : ∃ w, SvdGood n M w := by
  let A : Matrix (Fin n) (Fin n) ℝ := fun i j => ent n M i j
  let T : EuclideanSpace ℝ (Fin n) →ₗ[ℝ] EuclideanSpace ℝ (Fin n) := Matrix.toEuclideanLin A
  obtain ⟨u, v, σ, h1, h2, h3⟩ := exists_svd T
  let U : Nat → Nat → ℝ := fun i p => if h : i < n ∧ p < n then u ⟨p, h.2⟩ ⟨i, h.1⟩ else 0
  let V : Nat → Nat → ℝ := fun p j => if h : p < n ∧ j < n then v ⟨p, h.1⟩ ⟨j, h.2⟩ else 0
  let S : Nat → ℝ := fun p => if h : p < n then σ ⟨p, h⟩ else 0
  have eU : ∀ i < n, ∀ p < n, ent n (cm n n U) i p = U i p := fun i hi p hp => getD_cm _ _ hi hp
  have eV : ∀ i < n, ∀ p < n, ent n (cm n n V) i p = V i p := fun i hi p hp => getD_cm _ _ hi hp
  have eS : ∀ p < n, ((List.range n).map S).getD p 0 = S p := fun p hp => by
    simp [List.getD_eq_getElem?_getD, hp]
  refine ⟨⟨cm n n U, (List.range n).map S, cm n n V⟩, by simp [cm], by simp, by simp [cm], ?_, ?_, ?_, ?_, ?_⟩
  · intro i hi j hj
    dsimp only
    have hs : ∀ p ∈ range n, ent n (cm n n U) i p * (((List.range n).map S).getD p 0 * ent n (cm n n V) p j)
        = U i p * (S p * V p j) := fun p hp => by
      have hp := mem_range.1 hp
      rw [eU i hi p hp, eS p hp, eV p hp j hj]
    rw [sum_congr rfl hs, sum_range]
    have e1 : T (EuclideanSpace.single ⟨j, hj⟩ 1) = ∑ p, v p ⟨j, hj⟩ • σ p • u p := by
      conv_lhs => rw [← v.sum_repr (EuclideanSpace.single ⟨j, hj⟩ 1), map_sum]
      refine sum_congr rfl fun p _ => ?_
      rw [map_smul, h3, v.repr_apply_apply]
      congr 1
      rw [EuclideanSpace.inner_single_right]
      simp
    have e2 : T (EuclideanSpace.single ⟨j, hj⟩ 1) ⟨i, hi⟩ = ent n M i j := by
      show Matrix.mulVec A (EuclideanSpace.single ⟨j, hj⟩ (1 : ℝ)).ofLp ⟨i, hi⟩ = _
      rw [PiLp.ofLp_single, Matrix.mulVec_single_one]
      rfl
    rw [← e2, e1]
    simp only [WithLp.ofLp_sum, Finset.sum_apply, PiLp.smul_apply, smul_eq_mul]
    refine sum_congr rfl fun p _ => ?_
    simp only [U, S, V, hi, hj, p.2, and_self, dif_pos]
    ring
  · intro p hp q hq
    dsimp only
    have hs : ∀ i ∈ range n, ent n (cm n n U) i p * ent n (cm n n U) i q = U i p * U i q := fun i hi => by
      have hi := mem_range.1 hi
      rw [eU i hi p hp, eU i hi q hq]
    rw [sum_congr rfl hs, sum_range]
    have := u.inner_eq_ite ⟨p, hp⟩ ⟨q, hq⟩
    rw [PiLp.inner_apply] at this
    simp only [Fin.mk.injEq] at this
    rw [← this]
    refine sum_congr rfl fun i _ => ?_
    simp [U, hp, hq, mul_comm]
  · intro p hp q hq
    dsimp only
    have hs : ∀ i ∈ range n, ent n (cm n n V) p i * ent n (cm n n V) q i = V p i * V q i := fun i hi => by
      have hi := mem_range.1 hi
      rw [eV p hp i hi, eV q hq i hi]
    rw [sum_congr rfl hs, sum_range]
    have := v.inner_eq_ite ⟨p, hp⟩ ⟨q, hq⟩
    rw [PiLp.inner_apply] at this
    simp only [Fin.mk.injEq] at this
    rw [← this]
    refine sum_congr rfl fun i _ => ?_
    simp [V, hp, hq, mul_comm]
  · intro p hp
    dsimp only
    rw [eS p hp]
    simp only [S, hp, dif_pos]
    exact h1 _
  · intro p q hpq hq
    dsimp only
    rw [eS p (by omega), eS q hq]
    simp only [S, hq, show p < n by omega, dif_pos]
    exact h2 (by simpa using hpq)

open Classical in
/-- Some singular value decomposition of every square matrix. -/
noncomputable def svdAny (m n : Nat) (M : List ℝ) : C Svd :=
  if h : m = n ∧ M.length = n * n then .ok (exists_svdGood h.2).choose else .error .assertFail

theorem svdAny_law : SvdLaw svdAny := fun n M _ hM =>
  ⟨_, by rw [svdAny, dif_pos ⟨rfl, hM⟩], (exists_svdGood hM).choose_spec⟩

/-! Square-summable sequences. -/

abbrev L2 : Type := lp (fun _ : ℕ => ℝ) 2

noncomputable def sEv : Ev ℝ L2 ℕ := ⟨fun f n => f n, fun _ => false⟩
def sFam : Fam L2 ℕ := ⟨fun _ _ => True, fun _ _ => True⟩
noncomputable def sInteg : Integ ℝ ℕ := ⟨fun _ g => Summable g, fun _ g => ∑' n, g n⟩
noncomputable def sOps : LOps ℝ L2 where
  scale := fun a f => .ok (a • f)
  prod := fun _ _ => .error .assertFail
  daxpby := fun a f b g => .ok (a • f + b • g)
  poly := fun _ => false
  lcPoly := fun _ _ => .error .assertFail
  spPoly := fun _ _ => .error .assertFail

/-- The starting functions of the sweeps: unit sequences in the first row (column) and zero elsewhere. -/
noncomputable def qStart (r c : Nat) : List L2 := cm r c (fun i v => if i = 0 then lp.single 2 v (1 : ℝ) else 0)
noncomputable def lStart (r c : Nat) : List L2 := cm r c (fun v j => if j = 0 then lp.single 2 v (1 : ℝ) else 0)

noncomputable def sQr (_ : Nat) (A : Qma L2) : C (Qma L2 × List ℝ) := do
  let r ← Qr.qmarrayHouseholder 0 A.nrows A.ncols A.funcs (qStart A.nrows A.ncols) (List.replicate (A.ncols * A.ncols) 0)
  pure (⟨A.nrows, A.ncols, r.1⟩, r.2)
noncomputable def sLq (_ : Nat) (A : Qma L2) : C (Qma L2 × List ℝ) := do
  let r ← Qr.qmarrayHouseholderRows 0 A.nrows A.ncols A.funcs (lStart A.nrows A.ncols) (List.replicate (A.nrows * A.nrows) 0)
  pure (⟨A.nrows, A.ncols, r.1⟩, r.2)

theorem s_int : IntLaw sFam.D sInteg where
  zero := fun _ => summable_zero
  add := fun _ _ _ hg hh => ⟨hg.add hh, hg.tsum_add hh⟩
  smul := fun _ a _ hg => ⟨hg.mul_left a, tsum_mul_left⟩
  congr := fun _ g h e hg => by
    have : g = h := funext fun x => e x trivial
    subst this; exact ⟨hg, rfl⟩

theorem s_inner (f g : L2) : ∑' n, f n * g n = inner ℝ f g := by
  rw [lp.inner_eq_tsum]
  exact tsum_congr fun n => by simp [mul_comm]

theorem s_mem2 : MemLaw2 sEv sFam sInteg := fun _ f g _ _ => by
  have := lp.summable_inner (𝕜 := ℝ) f g
  refine this.congr fun n => ?_
  simp [sEv, mul_comm]

theorem s_lin : LinLaw sEv sOps sFam where
  scale := fun _ a f _ => ⟨_, rfl, trivial, fun x _ => by simp [sEv]⟩
  daxpby := fun _ a f b g _ _ => ⟨_, rfl, trivial, fun x _ => rfl⟩
  lcPoly := fun k cs fs _ hne h => by
    obtain ⟨f, l, rfl⟩ := List.exists_cons_of_ne_nil hne
    exact absurd (h f (by simp)).2 (by simp [sOps])

theorem s_innerLaw : InnerLaw sEv sFam sInteg (fun f g => .ok (inner ℝ f g)) := fun _ f g _ _ => by
  show Except.ok (inner ℝ f g) = _
  rw [← s_inner]; rfl

theorem single_inner (v w : ℕ) : inner ℝ (lp.single 2 v (1 : ℝ) : L2) (lp.single 2 w (1 : ℝ)) = if v = w then (1 : ℝ) else 0 := by
  rw [lp.inner_single_left]
  by_cases h : v = w
  · subst h; simp
  · simp [lp.single_apply, h]

theorem s_val (Q : Qma L2) (x i j : Nat) : Q.val sEv x i j = (Q.funcs.getD (j * Q.nrows + i) 0 : L2) x := by
  rw [Qma.val, List.getD_eq_getElem?_getD]
  cases Q.funcs[j * Q.nrows + i]? with
  | none => rfl
  | some f => rfl

theorem s_J (Q : Qma L2) (k i c i' c' : Nat) :
    sInteg.J k (fun x => Q.val sEv x i c * Q.val sEv x i' c')
      = inner ℝ (Q.funcs.getD (c * Q.nrows + i) 0 : L2) (Q.funcs.getD (c' * Q.nrows + i') 0) := by
  rw [← s_inner]
  simp only [s_val]
  rfl

theorem zero_triangular {pos : Nat → Nat → Nat} {m n : Nat} : Qr.Triangular pos m (List.replicate n (0 : ℝ)) := by
  intro j _ k _ _
  rw [List.getD_eq_getElem?_getD, List.getElem?_replicate]
  split <;> rfl

theorem sum_apply' (n : Nat) (c : Nat → ℝ) (f : Nat → L2) (x : Nat) :
    ((∑ k ∈ range n, c k • f k : L2) : ∀ _ : ℕ, ℝ) x = ∑ k ∈ range n, c k * f k x := by
  induction n with
  | zero => rfl
  | succ n ih => rw [sum_range_succ, sum_range_succ, ← ih]; rfl

theorem s_qr : QrLaw sEv sFam sInteg sQr := by
  intro k A hA hr hc
  have ho : Qr.Orthonormal (fun v i => v * A.nrows + i) A.ncols A.nrows (qStart A.nrows A.ncols) := by
    intro v hv w hw
    have hs : ∀ i ∈ range A.nrows, inner ℝ ((qStart A.nrows A.ncols).getD (v * A.nrows + i) 0)
        ((qStart A.nrows A.ncols).getD (w * A.nrows + i) 0) = if i = 0 then (if v = w then (1 : ℝ) else 0) else 0 := by
      intro i hi
      have hi := mem_range.1 hi
      rw [qStart, getD_cm _ _ hi hv, getD_cm _ _ hi hw]
      by_cases h : i = 0
      · simp only [if_pos h]; exact single_inner v w
      · simp only [if_neg h]; exact inner_zero_left _
    rw [sum_congr rfl hs, sum_ite_eq' (range A.nrows) 0, if_pos (mem_range.2 hr)]
  obtain ⟨Q, R, h1, h2, h3, h4, -, -, -, h5⟩ := Qr.qmarray_householder_spec (le_refl (0 : ℝ)) (A := A.funcs)
    (Q := qStart A.nrows A.ncols) (R := List.replicate (A.ncols * A.ncols) 0) hA.wf (by simp [qStart, cm]) (by simp)
    zero_triangular ho
  refine ⟨(⟨A.nrows, A.ncols, Q⟩, R), by rw [sQr, h1]; rfl, ⟨h2, fun f _ => trivial⟩, rfl, rfl, h3, ?_, ?_⟩
  · intro x _ i hi j hj
    rw [s_val, h5 rfl j hj i hi, sum_apply']
    refine sum_congr rfl fun c _ => ?_
    rw [s_val, ent, mul_comm]
  · intro c hc c' hc'
    rw [sum_congr rfl fun i _ => s_J _ k i c i c']
    exact h4 c hc c' hc'

theorem s_lq : LqLaw sEv sFam sInteg sLq := by
  intro k A hA hr hc
  have ho : Qr.Orthonormal (fun v i => i * A.nrows + v) A.nrows A.ncols (lStart A.nrows A.ncols) := by
    intro v hv w hw
    have hs : ∀ i ∈ range A.ncols, inner ℝ ((lStart A.nrows A.ncols).getD (i * A.nrows + v) 0)
        ((lStart A.nrows A.ncols).getD (i * A.nrows + w) 0) = if i = 0 then (if v = w then (1 : ℝ) else 0) else 0 := by
      intro i hi
      have hi := mem_range.1 hi
      rw [lStart, getD_cm _ _ hv hi, getD_cm _ _ hw hi]
      by_cases h : i = 0
      · simp only [if_pos h]; exact single_inner v w
      · simp only [if_neg h]; exact inner_zero_left _
    rw [sum_congr rfl hs, sum_ite_eq' (range A.ncols) 0, if_pos (mem_range.2 hc)]
  obtain ⟨Q, L, h1, h2, h3, h4, -, -, -, h5⟩ := Qr.qmarray_householder_rows_spec (le_refl (0 : ℝ)) (A := A.funcs)
    (Q := lStart A.nrows A.ncols) (L := List.replicate (A.nrows * A.nrows) 0) hA.wf (by simp [lStart, cm]) (by simp)
    zero_triangular ho
  refine ⟨(⟨A.nrows, A.ncols, Q⟩, L), by rw [sLq, h1]; rfl, ⟨h2, fun f _ => trivial⟩, rfl, rfl, h3, ?_, ?_⟩
  · intro x _ i hi j hj
    rw [s_val, h5 rfl i hi j hj, sum_apply']
    refine sum_congr rfl fun c _ => ?_
    rw [s_val, ent]
  · intro c hc c' hc'
    rw [sum_congr rfl fun i _ => s_J _ k c i c' i]
    exact h4 c hc c' hc'

/-- The routines for square-summable sequences. -/
noncomputable def sRd : RdOps L2 where
  lin := sOps
  inner := fun f g => .ok (inner ℝ f g)
  qr := sQr
  lq := sLq
  svd := svdAny
  zero := .error .exit

end C3.Round

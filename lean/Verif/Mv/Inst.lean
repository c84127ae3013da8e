/-
C106: the contracts are met by square-summable sequences.
-/
import Verif.Mv.Law
import Verif.Round.Main
import Mathlib.LinearAlgebra.Basis.VectorSpace
import Mathlib.LinearAlgebra.Matrix.ToLin
import Mathlib.LinearAlgebra.Dual.Lemmas
import Mathlib.LinearAlgebra.FiniteDimensional.Lemmas
import Mathlib.Topology.Algebra.InfiniteSum.Group

set_option linter.unusedSectionVars false

namespace C3.Mv
open Finset C3.Ft C3.Round

/-- Among vectors that span there are some with a nonvanishing determinant. -/
theorem exists_det {P : Type} {r : Nat} (rows : P → Fin r → ℝ)
    (h : ∀ c : Fin r → ℝ, (∀ p, ∑ j, rows p j * c j = 0) → c = 0) :
    ∃ f : Fin r → P, (Matrix.of fun i j => rows (f i) j).det ≠ 0 := by
  have hspan : Submodule.span ℝ (Set.range rows) = ⊤ := by
    by_contra hne
    obtain ⟨φ, h1, h2⟩ := Submodule.exists_le_ker_of_lt_top _ (lt_top_iff_ne_top.2 hne)
    apply h1
    have hc : (fun j => φ (Pi.single j 1)) = 0 := by
      apply h
      intro p
      have h3 : φ (rows p) = 0 := LinearMap.mem_ker.1 (h2 (Submodule.subset_span ⟨p, rfl⟩))
      have h4 : rows p = ∑ j, rows p j • (Pi.single j 1 : Fin r → ℝ) := by
        ext t
        simp [Finset.sum_apply, Pi.single_apply]
      rw [h4, map_sum] at h3
      simpa only [map_smul, smul_eq_mul] using h3
    refine LinearMap.pi_ext' fun j => LinearMap.ext_ring ?_
    exact congrFun hc j
  obtain ⟨b, hb1, hb2, hb3⟩ := exists_linearIndependent ℝ (Set.range rows)
  rw [hspan] at hb2
  let B := Module.Basis.mk hb3 (by rw [Subtype.range_coe, hb2])
  have hfin : Finite b := hb3.finite
  have : Fintype b := Fintype.ofFinite b
  have hcard : Fintype.card b = r := by
    have := Module.finrank_eq_card_basis B
    rw [Module.finrank_fin_fun] at this
    exact this.symm
  let g : Fin r ≃ b := (Fintype.equivFinOfCardEq hcard).symm
  have hp : ∀ i, ∃ p, rows p = (g i : Fin r → ℝ) := fun i => hb1 (g i).2
  choose f hf using hp
  refine ⟨f, ?_⟩
  have hli : LinearIndependent ℝ (fun i => (g i : Fin r → ℝ)) := hb3.comp g g.injective
  have hM : (Matrix.of fun i j => rows (f i) j) = Matrix.of fun i j => (g i : Fin r → ℝ) j := by
    ext i j
    rw [Matrix.of_apply, Matrix.of_apply, hf]
  rw [hM]
  have hu : IsUnit (Matrix.of fun i j => (g i : Fin r → ℝ) j) := Matrix.linearIndependent_rows_iff_isUnit.1 hli
  exact ((Matrix.isUnit_iff_isUnit_det _).1 hu).ne_zero

/-- A square-summable sequence has an entry of largest absolute value. -/
theorem s_max (f : L2) : ∃ n : ℕ, ∀ m, |f m| ≤ |f n| := by
  by_cases h : ∀ m, f m = 0
  · exact ⟨0, fun m => by rw [h m, h 0]⟩
  · push_neg at h
    obtain ⟨n0, hn0⟩ := h
    have hs : Summable fun n : ℕ => f n * f n := by
      have := s_mem2 0 f f trivial trivial
      exact this
    have ht := hs.tendsto_cofinite_zero
    have hpos : 0 < f n0 * f n0 := mul_self_pos.2 hn0
    have hev := ht.eventually (gt_mem_nhds hpos)
    have hfin : {m : ℕ | ¬ f m * f m < f n0 * f n0}.Finite := by
      simpa [Filter.eventually_cofinite] using hev
    obtain ⟨n, hn, hmax⟩ := Set.exists_max_image _ (fun m : ℕ => |f m|) hfin ⟨n0, by simp⟩
    refine ⟨n, fun m => ?_⟩
    by_cases hm : f m * f m < f n0 * f n0
    · have h1 : |f m| ≤ |f n0| := abs_le_iff_mul_self_le.2 hm.le
      exact h1.trans (hmax n0 (by simp))
    · exact hmax m hm

/-- The largest entry of a sequence. -/
noncomputable def sAm (f : L2) : C (ℝ × ℕ) := .ok (|f (s_max f).choose|, (s_max f).choose)

theorem s_am : AmLaw sEv sFam sAm := fun _ f _ => ⟨_, rfl, trivial, rfl, fun x _ => (s_max f).choose_spec x⟩

/-- What the LU contract asks for. -/
def sLuGood (k : Nat) (A : Qma L2) (l : LuRes ℕ) : Prop := l.info ≤ 0 ∧ Piv sFam k A.nrows A.ncols l.piv l.px ∧
  (sub sEv A l.piv l.px).det ≠ 0 ∧
  (A.ncols = 1 → ∀ x y, sFam.D k x → l.px[0]? = some y → ∀ i < A.nrows, |A.val sEv x i 0| ≤ |A.val sEv y (l.piv.getD 0 0) 0|)

theorem s_lu_exists {k : Nat} {A : Qma L2} (hA : QOk sFam k A) (hr : 0 < A.nrows) (hc : 0 < A.ncols)
    (hind : ColInd sEv sFam k A) : ∃ l, sLuGood k A l := by
  by_cases h1 : A.ncols = 1
  · obtain ⟨m, -, m2, m3, -, m5, m6⟩ := absmax1d_ok (e := sEv) s_am hA hr hc
    have hcol : m.col = 0 := by omega
    rw [hcol] at m5
    have hval : ∀ x, ∀ i < A.nrows, |A.val sEv x i 0| ≤ |A.val sEv m.x m.row 0| := fun x i hi => by
      rw [← m5]; exact m6 x trivial i hi 0 (by omega)
    have hne : A.val sEv m.x m.row 0 ≠ 0 := by
      intro h0
      have := hind (fun _ => 1) (fun x _ i hi => by
        refine sum_eq_zero fun j _ => ?_
        have hj : (j : Nat) = 0 := by have := j.2; omega
        have := hval x i hi
        rw [h0, abs_zero] at this
        rw [hj, abs_eq_zero.1 (le_antisymm this (abs_nonneg _)), zero_mul])
      exact one_ne_zero (congrFun this ⟨0, hc⟩)
    refine ⟨⟨0, [m.row], [m.x]⟩, le_rfl, ⟨h1.symm, h1.symm, fun i hi => ?_, fun _ _ => trivial⟩, ?_, ?_⟩
    · obtain rfl : i = 0 := by omega
      exact m2
    · obtain ⟨nr, nc, fs⟩ := A
      dsimp only at h1
      subst h1
      rw [Matrix.det_fin_one]
      exact hne
    · intro _ x y _ hy i hi
      have : m.x = y := Option.some.inj hy
      rw [← this]
      exact hval x i hi
  · obtain ⟨f, hf⟩ := exists_det (P := Fin A.nrows × ℕ) (r := A.ncols) (fun p j => A.val sEv p.2 p.1 j)
      (fun c hc => hind c fun x _ i hi => hc (⟨i, hi⟩, x))
    refine ⟨⟨0, List.ofFn fun i => ((f i).1 : Nat), List.ofFn fun i => (f i).2⟩, le_rfl,
      ⟨by simp, by simp, fun i hi => ?_, fun _ _ => trivial⟩, ?_, fun h => absurd h h1⟩
    · rw [List.getD_eq_getElem?_getD, List.getElem?_eq_getElem (by simpa using hi), List.getElem_ofFn]
      exact (f ⟨i, hi⟩).1.2
    · have : sub sEv A (List.ofFn fun i => ((f i).1 : Nat)) (List.ofFn fun i => (f i).2)
          = Matrix.of fun (i j : Fin A.ncols) => A.val sEv (f i).2 (f i).1 j := by
        ext i j
        rw [sub, Matrix.of_apply, Matrix.of_apply, List.getElem?_eq_getElem (by simp), List.getElem_ofFn,
          List.getD_eq_getElem?_getD, List.getElem?_eq_getElem (by simp), List.getElem_ofFn]
        rfl
      rw [this]
      exact hf

open Classical in
/-- Some pivots, if there are any. -/
noncomputable def sLu (k : Nat) (A : Qma L2) : C (LuRes ℕ) :=
  if h : ∃ l, sLuGood k A l then .ok h.choose else .error .exit

theorem s_lu : LuLaw sEv sFam sLu := by
  intro k A hA hr hc hind
  have h := s_lu_exists hA hr hc hind
  exact ⟨h.choose, by rw [sLu, dif_pos h], h.choose_spec⟩

/-- The routines for square-summable sequences. -/
noncomputable def sMv : MvOps L2 ℕ where
  lin := sOps
  lu := sLu
  am := sAm
  pinv := fun n M => (pinv svdAny 0 n M).map Prod.fst
  dedup := fun _ _ px => .ok px

theorem s_mvLaws : MvLaws sEv sFam sMv where
  lin := s_lin
  am := s_am
  lu := s_lu
  pinv := fun n M hn hM hdet => by
    obtain ⟨inv, h1, h2, h3, -⟩ := pinv_nonsingular svdAny_law hn hM (cutoff := 0) le_rfl hdet
    exact ⟨inv, by show (pinv svdAny 0 n M).map Prod.fst = _; rw [h1]; rfl, h2, h3⟩
  dedup := fun _ _ _ _ _ _ _ => rfl

/-- Two unit sequences in one row: a case of the hypotheses of `maxvol_exact` with two columns. -/
example : ∃ l r, sMv.lu 0 ⟨1, 2, [unit 0, unit 1]⟩ = .ok l ∧ maxvol sEv sMv 0 ⟨1, 2, [unit 0, unit 1]⟩ [] = .ok r ∧
    r.info ≤ 0 ∧ MvGood sEv sFam 0 ⟨1, 2, [unit 0, unit 1]⟩ l r := by
  refine maxvol_exact s_mvLaws (A := ⟨1, 2, [unit 0, unit 1]⟩) ⟨rfl, fun _ _ => trivial⟩ (by decide) (by decide) ?_ []
  intro c h
  have h0 := h 0 trivial 0 (by decide)
  have h1 := h 1 trivial 0 (by decide)
  rw [Fin.sum_univ_two] at h0 h1
  have e1 : (unit 0 : L2) 0 * c 0 + (unit 1 : L2) 0 * c 1 = 0 := h0
  have e2 : (unit 0 : L2) 1 * c 0 + (unit 1 : L2) 1 * c 1 = 0 := h1
  simp [unit, lp.single_apply] at e1 e2
  funext i
  fin_cases i
  · exact e1
  · exact e2

end C3.Mv

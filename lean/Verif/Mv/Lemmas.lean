/-
Maximum-volume pivots: the pieces.
-/
import Verif.Mv.Model
import Verif.Round.Svd
import Verif.Ft.MulProps
import Mathlib.LinearAlgebra.Matrix.NonsingularInverse
import Mathlib.LinearAlgebra.Matrix.Determinant.Basic

set_option linter.unusedSectionVars false

namespace C3.Mv
open Finset C3.Ft C3.Round
variable {U X : Type} {e : Ev ℝ U X} {F : Fam U X}

/-! ### Largest entry -/

/-- Contract of `generic_function_absmax`: a point of the domain where the absolute value is largest, and that value. -/
def AmLaw (e : Ev ℝ U X) (F : Fam U X) (am : U → C (ℝ × X)) : Prop :=
  ∀ k u, F.P k u → ∃ m, am u = .ok m ∧ F.D k m.2 ∧ m.1 = |e.ev u m.2| ∧ ∀ x, F.D k x → |e.ev u x| ≤ m.1

theorem arrAbsmax_ok {am : U → C (ℝ × X)} (ham : AmLaw e F am) {k n : Nat} {fs : List U} (hn : 0 < n) (hl : fs.length = n)
    (hP : ∀ f ∈ fs, F.P k f) :
    ∃ m f, arrAbsmax am n fs = .ok m ∧ m.ind < n ∧ fs[m.ind]? = some f ∧ F.D k m.x ∧ m.val = |e.ev f m.x| ∧
      ∀ (i : Nat) (g : U), fs[i]? = some g → ∀ x, F.D k x → |e.ev g x| ≤ m.val := by
  have h0 : 0 < fs.length := by omega
  obtain ⟨m, m1, m2, m3, m4⟩ := ham k _ (hP _ (List.getElem_mem h0))
  rw [arrAbsmax, rd_ok h0, bind_ok, m1, bind_ok]
  obtain ⟨t, t1, t2⟩ := forR_spec (a := 1) (b := n) (body := fun ii t => do
      let f ← rd fs ii
      let m ← am f
      pure (if m.1 > t.val then (⟨ii, m.2, m.1⟩ : Loc X) else t)) (s := ⟨0, m.2, m.1⟩)
    (I := fun i (t : Loc X) => t.ind < n ∧ (∃ f, fs[t.ind]? = some f ∧ t.val = |e.ev f t.x|) ∧ F.D k t.x ∧
      ∀ j < i, ∀ g : U, fs[j]? = some g → ∀ x, F.D k x → |e.ev g x| ≤ t.val) (by omega)
    ⟨hn, ⟨_, List.getElem?_eq_getElem h0, m3⟩, m2, fun j hj g hg x hx => by
      obtain rfl : j = 0 := by omega
      rw [List.getElem?_eq_getElem h0] at hg
      rw [← Option.some.inj hg]; exact m4 x hx⟩
    (by
      rintro i h1 h2 t ⟨a1, ⟨f, a2, a3⟩, a4, a5⟩
      have hi : i < fs.length := by omega
      obtain ⟨m', b1, b2, b3, b4⟩ := ham k _ (hP _ (List.getElem_mem hi))
      refine ⟨_, by rw [rd_ok hi, bind_ok, b1, bind_ok, pure_eq_ok], ?_⟩
      by_cases hc : m'.1 > t.val
      · rw [if_pos hc]
        refine ⟨h2, ⟨_, List.getElem?_eq_getElem hi, b3⟩, b2, fun j hj g hg x hx => ?_⟩
        by_cases hji : j = i
        · subst hji
          rw [List.getElem?_eq_getElem hi] at hg
          rw [← Option.some.inj hg]; exact b4 x hx
        · exact (a5 j (by omega) g hg x hx).trans (le_of_lt hc)
      · rw [if_neg hc]
        refine ⟨a1, ⟨f, a2, a3⟩, a4, fun j hj g hg x hx => ?_⟩
        by_cases hji : j = i
        · subst hji
          rw [List.getElem?_eq_getElem hi] at hg
          rw [← Option.some.inj hg]; exact (b4 x hx).trans (not_lt.1 hc)
        · exact a5 j (by omega) g hg x hx)
  obtain ⟨c1, ⟨f, c2, c3⟩, c4, c5⟩ := t2
  refine ⟨t, f, t1, c1, c2, c4, c3, fun i g hg x hx => c5 i ?_ g hg x hx⟩
  obtain ⟨h, -⟩ := List.getElem?_eq_some_iff.1 hg
  omega

theorem subLoop_ok {nrows : Nat} (h : 0 < nrows) : ∀ (fuel c s : Nat), c < fuel →
    subLoop nrows fuel c s = .ok (c % nrows, s + c / nrows) := by
  intro fuel
  induction fuel with
  | zero => intro c s hc; omega
  | succ n ih =>
    intro c s hc
    rw [subLoop]
    by_cases hlt : c + 1 > nrows
    · rw [if_pos hlt, ih _ _ (by omega)]
      have hle : nrows ≤ c := by omega
      rw [← Nat.mod_eq_sub_mod hle, Nat.div_eq_sub_div h hle]
      congr 2; omega
    · rw [if_neg hlt, Nat.mod_eq_of_lt (by omega), Nat.div_eq_of_lt (by omega)]
      rfl

/-- The largest entry of an array of functions. -/
theorem absmax1d_ok {am : U → C (ℝ × X)} (ham : AmLaw e F am) {k : Nat} {B : Qma U} (hB : QOk F k B) (hr : 0 < B.nrows)
    (hc : 0 < B.ncols) :
    ∃ m, absmax1d am B = .ok m ∧ m.row < B.nrows ∧ m.col < B.ncols ∧ F.D k m.x ∧ m.val = |B.val e m.x m.row m.col| ∧
      ∀ x, F.D k x → ∀ i < B.nrows, ∀ j < B.ncols, |B.val e x i j| ≤ m.val := by
  obtain ⟨m, f, m1, m2, m3, m4, m5, m6⟩ := arrAbsmax_ok ham (k := k) (Nat.mul_pos hr hc) hB.wf hB.mem
  have hrow : m.ind % B.nrows < B.nrows := Nat.mod_lt _ hr
  have hcol : m.ind / B.nrows < B.ncols := Nat.div_lt_of_lt_mul m2
  have hidx : m.ind / B.nrows * B.nrows + m.ind % B.nrows = m.ind := by
    rw [Nat.mul_comm]; exact Nat.div_add_mod _ _
  refine ⟨⟨m.ind % B.nrows, 0 + m.ind / B.nrows, m.x, m.val⟩, by
    rw [absmax1d, m1, bind_ok, subLoop_ok hr _ _ _ (by omega), bind_ok, pure_eq_ok], hrow, by rw [Nat.zero_add]; exact hcol, m4, ?_, ?_⟩
  · dsimp only
    rw [Nat.zero_add]
    obtain ⟨g, g1, -, g3⟩ := hB.get (e := e) hrow hcol rfl
    rw [hidx, rd_of_getElem? m3] at g1
    rw [m5, ← g3 _ m4, Except.ok.inj g1]
  · intro x hx i hi j hj
    obtain ⟨g, g1, -, g3⟩ := hB.get (e := e) hi hj rfl
    rw [← g3 x hx]
    have hlt : j * B.nrows + i < B.funcs.length := by rw [hB.wf]; exact cm_idx_lt hi hj
    rw [rd_ok hlt] at g1
    exact m6 _ g (by rw [List.getElem?_eq_getElem hlt, Except.ok.inj g1]) x hx

/-! ### Submatrices -/

/-- A matrix stored by columns. -/
noncomputable def mat (n : Nat) (M : List ℝ) : Matrix (Fin n) (Fin n) ℝ := Matrix.of fun i j => ent n M i j

/-- Pivots of an array with `nrows` rows and `n` columns in the dimension `k`. -/
structure Piv (F : Fam U X) (k nrows n : Nat) (piv : List Nat) (px : List X) : Prop where
  lp : piv.length = n
  lx : px.length = n
  row : ∀ i < n, piv.getD i 0 < nrows
  dom : ∀ x ∈ px, F.D k x

/-- Row `i` of the submatrix at the pivots: the row of `A` number `piv[i]` at the point `px[i]`. -/
noncomputable def sub (e : Ev ℝ U X) (A : Qma U) (piv : List Nat) (px : List X) : Matrix (Fin A.ncols) (Fin A.ncols) ℝ :=
  Matrix.of fun i j => (px[(i : Nat)]?.map fun x => A.val e x (piv.getD i 0) j).getD 0

theorem Piv.at {k nrows n : Nat} {piv : List Nat} {px : List X} (h : Piv F k nrows n piv px) {i : Nat} (hi : i < n) :
    ∃ x, px[i]? = some x ∧ rd px i = .ok x ∧ F.D k x ∧ rd piv i = .ok (piv.getD i 0) ∧ piv.getD i 0 < nrows := by
  have h1 : i < px.length := by rw [h.lx]; exact hi
  have h2 : i < piv.length := by rw [h.lp]; exact hi
  exact ⟨px[i], List.getElem?_eq_getElem h1, rd_ok h1, h.dom _ (List.getElem_mem h1), rd_getD 0 h2, h.row i hi⟩

theorem Piv.set {k nrows n : Nat} {piv : List Nat} {px : List X} (h : Piv F k nrows n piv px) {c r : Nat} {x : X}
    (hr : r < nrows) (hx : F.D k x) : Piv F k nrows n (piv.set c r) (px.set c x) where
  lp := by simp [h.lp]
  lx := by simp [h.lx]
  row := by
    intro i hi
    rw [List.getD_eq_getElem?_getD, List.getElem?_set]
    by_cases hci : c = i
    · rw [if_pos hci]
      subst hci
      rw [if_pos (by rw [h.lp]; exact hi)]
      exact hr
    · rw [if_neg hci, ← List.getD_eq_getElem?_getD]; exact h.row i hi
  dom := by
    intro y hy
    rcases List.mem_or_eq_of_mem_set hy with h1 | rfl
    · exact h.dom y h1
    · exact hx

theorem subMat_ok {k : Nat} {A : Qma U} (hA : QOk F k A) {piv : List Nat} {px : List X}
    (hp : Piv F k A.nrows A.ncols piv px) :
    ∃ M, subMat e A piv px = .ok M ∧ M.length = A.ncols * A.ncols ∧ mat A.ncols M = sub e A piv px := by
  refine ⟨_, forN_fill_cm' (n := A.ncols) (m := A.ncols)
    (fun i j => (px[i]?.map fun x => A.val e x (piv.getD i 0) j).getD 0) (by simp) ?_, by simp [cm], ?_⟩
  · intro i hi j hj b _
    obtain ⟨x, h1, h2, h3, h4, h5⟩ := hp.at hi
    obtain ⟨f, f1, -, f3⟩ := hA.get (e := e) h5 hj rfl
    rw [h4, bind_ok, f1, bind_ok, h2, bind_ok, h1, f3 x h3]
    rfl
  · ext i j
    rw [mat, sub, Matrix.of_apply, Matrix.of_apply, ent, getD_cm _ _ i.2 j.2]

/-- Replacing pivot `c` replaces a row of the submatrix. -/
theorem sub_set {k : Nat} {A : Qma U} {piv : List Nat} {px : List X} (hp : Piv F k A.nrows A.ncols piv px)
    (c : Fin A.ncols) (r : Nat) (x : X) :
    sub e A (piv.set c r) (px.set c x) = (sub e A piv px).updateRow c (fun j => A.val e x r j) := by
  ext i j
  rw [Matrix.updateRow_apply, sub, Matrix.of_apply, List.getElem?_set, List.getD_eq_getElem?_getD, List.getElem?_set]
  by_cases h : i = c
  · subst h
    rw [if_pos rfl, if_pos rfl, if_pos (show (i : Nat) < piv.length by rw [hp.lp]; exact i.2),
      if_pos (show (i : Nat) < px.length by rw [hp.lx]; exact i.2), if_pos rfl]
    rfl
  · have h' : ¬ (c : Nat) = i := fun hh => h (Fin.ext hh.symm)
    rw [if_neg h', if_neg h', if_neg h, sub, Matrix.of_apply, List.getD_eq_getElem?_getD]

/-- The determinant after replacing a row by a combination of the rows. -/
theorem det_swap {n : Nat} (S : Matrix (Fin n) (Fin n) ℝ) (c : Fin n) (w : Fin n → ℝ) :
    (S.updateRow c (Matrix.vecMul w S)).det = w c * S.det := by
  have : Matrix.vecMul w S = ∑ k, w k • S k := by
    ext j
    rw [Matrix.vecMul, dotProduct, Finset.sum_apply]
    rfl
  rw [this, Matrix.det_updateRow_sum]
  rfl

end C3.Mv

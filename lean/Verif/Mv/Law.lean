/-
C106: arrays with linearly independent columns always have pivots.
-/
import Verif.Mv.Pinv
import Verif.Round.Orthor

set_option linter.unusedSectionVars false

namespace C3.Mv
open Finset C3.Ft C3.Round
variable {U X : Type} {e : Ev ℝ U X} {F : Fam U X} {I : Integ ℝ X}

/-- No combination of the columns vanishes on the domain. -/
def ColInd (e : Ev ℝ U X) (F : Fam U X) (k : Nat) (A : Qma U) : Prop :=
  ∀ c : Fin A.ncols → ℝ, (∀ x, F.D k x → ∀ i < A.nrows, ∑ j : Fin A.ncols, A.val e x i j * c j = 0) → c = 0

/-- Contract of `qmarray_lu1d`: for linearly independent columns it returns pivots with a nonsingular submatrix (the
determinant is the product of the pivots, `C3.Qr.Lu.qmarray_lu1d_spec`); the pivot of a single column is its largest
entry. -/
def LuLaw (e : Ev ℝ U X) (F : Fam U X) (lu : Nat → Qma U → C (LuRes X)) : Prop :=
  ∀ k A, QOk F k A → 0 < A.nrows → 0 < A.ncols → ColInd e F k A → ∃ l, lu k A = .ok l ∧ l.info ≤ 0 ∧
    Piv F k A.nrows A.ncols l.piv l.px ∧ (sub e A l.piv l.px).det ≠ 0 ∧
    (A.ncols = 1 → ∀ x y, F.D k x → l.px[0]? = some y → ∀ i < A.nrows, |A.val e x i 0| ≤ |A.val e y (l.piv.getD 0 0) 0|)

/-- Contracts of the routines in exact arithmetic with all tolerances zero. -/
structure MvLaws (e : Ev ℝ U X) (F : Fam U X) (o : MvOps U X) : Prop where
  lin : LinLaw e o.lin F
  am : AmLaw e F o.am
  lu : LuLaw e F o.lu
  pinv : ∀ n M, 0 < n → M.length = n * n → (mat n M).det ≠ 0 →
    ∃ inv, o.pinv n M = .ok inv ∧ inv.length = n * n ∧ mat n inv * mat n M = 1
  dedup : ∀ k (A : Qma U) piv px, QOk F k A → Piv F k A.nrows A.ncols piv px → (sub e A piv px).det ≠ 0 →
    o.dedup A piv px = .ok px

/-- C106: for linearly independent columns the call succeeds. -/
theorem maxvol_exact {o : MvOps U X} (h : MvLaws e F o) {k : Nat} {A : Qma U} (hA : QOk F k A) (hr : 0 < A.nrows)
    (hc : 0 < A.ncols) (hind : ColInd e F k A) (inv0 : List ℝ) :
    ∃ l r, o.lu k A = .ok l ∧ maxvol e o k A inv0 = .ok r ∧ r.info ≤ 0 ∧ MvGood e F k A l r := by
  obtain ⟨l, l1, l2, l3, l4, l5⟩ := h.lu k A hA hr hc hind
  have hne : ∀ piv px, |(sub e A l.piv l.px).det| ≤ |(sub e A piv px).det| → (sub e A piv px).det ≠ 0 := by
    intro piv px hle h0
    rw [h0, abs_zero] at hle
    exact l4 (abs_eq_zero.1 (le_antisymm hle (abs_nonneg _)))
  obtain ⟨r, r1, r2⟩ := maxvol_partial h.lin h.am hA hr hc inv0 l1 l2 l3 l4
    (fun piv px M _ hv hM hm => h.pinv _ M hc hM (by rw [hm]; exact hne _ _ hv))
    l5 (fun _ piv px hp hv => h.dedup k A piv px hA hp (hne _ _ hv))
  exact ⟨l, r, l1, r1, by rw [r2.info]; exact l2, r2⟩

/-- Orthonormal columns are linearly independent. -/
theorem colInd_of_on (hI : IntLaw F.D I) (hm : MemLaw2 e F I) {k : Nat} {Q : Qma U} (hQ : QOk F k Q) (hon : ColON e I k Q) :
    ColInd e F k Q := by
  intro c hz
  funext a
  -- integrate the vanishing combination against column `a`
  have h1 : ∀ i < Q.nrows, ∑ j : Fin Q.ncols, c j * I.J k (fun x => Q.val e x i j * Q.val e x i a) = 0 := by
    intro i hi
    have hsum : ∀ s : Finset (Fin Q.ncols), I.V k (fun x => ∑ j ∈ s, c j * (Q.val e x i j * Q.val e x i a)) ∧
        I.J k (fun x => ∑ j ∈ s, c j * (Q.val e x i j * Q.val e x i a))
          = ∑ j ∈ s, c j * I.J k (fun x => Q.val e x i j * Q.val e x i a) := by
      intro s
      induction s using Finset.induction_on with
      | empty =>
        refine ⟨by simpa using hI.zero k, ?_⟩
        have h0 := (hI.smul k 0 _ (hI.zero k)).2
        simp only [mul_zero, zero_mul] at h0
        simpa using h0
      | insert j s hj ih =>
        have hv := val_mem2 hm hQ.wf hQ.mem hQ.wf hQ.mem hi j.2 hi a.2
        have h2 := hI.smul k (c j) _ hv
        have h3 := hI.add k _ _ h2.1 ih.1
        simp only [Finset.sum_insert hj]
        exact ⟨h3.1, by rw [h3.2, h2.2, ih.2]⟩
    rw [← (hsum univ).2]
    have hzero := hI.congr k (fun x => ∑ j : Fin Q.ncols, c j * (Q.val e x i j * Q.val e x i a)) (fun _ => 0)
      (fun x hx => by
        have := hz x hx i hi
        calc ∑ j : Fin Q.ncols, c j * (Q.val e x i j * Q.val e x i a)
            = (∑ j : Fin Q.ncols, Q.val e x i j * c j) * Q.val e x i a := by
              rw [Finset.sum_mul]; exact sum_congr rfl fun j _ => by ring
          _ = 0 := by rw [this, zero_mul]) (hsum univ).1
    rw [hzero.2]
    have h0 := (hI.smul k 0 _ (hI.zero k)).2
    simp only [mul_zero, zero_mul] at h0
    exact h0
  have h2 : ∑ j : Fin Q.ncols, c j * ∑ i ∈ range Q.nrows, I.J k (fun x => Q.val e x i j * Q.val e x i a) = 0 := by
    have hsw : ∑ j : Fin Q.ncols, c j * ∑ i ∈ range Q.nrows, I.J k (fun x => Q.val e x i j * Q.val e x i a)
        = ∑ i ∈ range Q.nrows, ∑ j : Fin Q.ncols, c j * I.J k (fun x => Q.val e x i j * Q.val e x i a) := by
      rw [Finset.sum_comm]
      exact sum_congr rfl fun j _ => by rw [mul_sum]
    rw [hsw]
    exact sum_eq_zero fun i hi => h1 i (mem_range.1 hi)
  have h3 : ∀ j : Fin Q.ncols, c j * ∑ i ∈ range Q.nrows, I.J k (fun x => Q.val e x i j * Q.val e x i a)
      = if j = a then c j else 0 := by
    intro j
    rw [hon j j.2 a a.2]
    by_cases hj : j = a
    · rw [if_pos (by rw [hj]), if_pos hj, mul_one]
    · rw [if_neg (fun hh => hj (Fin.ext hh)), if_neg hj, mul_zero]
  rw [sum_congr rfl fun j _ => h3 j, Finset.sum_ite_eq' univ a, if_pos (mem_univ a)] at h2
  exact h2

end C3.Mv

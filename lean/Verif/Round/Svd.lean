/-
The truncated singular value decomposition: how many singular values are kept, and what the returned factors are.
-/
import Verif.Round.Model
import Verif.Round.Gram
import Verif.Arr.Props

set_option linter.unusedSectionVars false

namespace C3.Round
open Finset C3.Ft
variable {U X : Type} {e : Ev ℝ U X} {F : Fam U X} {I : Integ ℝ X}

/-- Sum of the squares of the entries from position `r` on. -/
noncomputable def tailSq (n : Nat) (s : List ℝ) (r : Nat) : ℝ := ∑ p ∈ Ico r n, s.getD p 0 ^ 2

theorem tailSq_self {n : Nat} {s : List ℝ} : tailSq n s n = 0 := by simp [tailSq]

theorem tailSq_pred {n r : Nat} {s : List ℝ} (h : r < n) : tailSq n s r = tailSq n s (r + 1) + s.getD r 0 ^ 2 := by
  rw [tailSq, tailSq, Finset.sum_eq_sum_Ico_succ_bot h, add_comm]

theorem tailSq_nonneg {n r : Nat} {s : List ℝ} : 0 ≤ tailSq n s r := sum_nonneg fun _ _ => sq_nonneg _

theorem tailSq_anti {n r r' : Nat} {s : List ℝ} (h : r ≤ r') : tailSq n s r' ≤ tailSq n s r :=
  sum_le_sum_of_subset_of_nonneg (Ico_subset_Ico_left h) fun _ _ _ => sq_nonneg _

/-- The number of singular values kept: at least one, the discarded ones have square sum below `delta`, and discarding one
more would reach `delta`. -/
structure RankSpec (n : Nat) (s : List ℝ) (delta : ℝ) (r : Nat) : Prop where
  pos : 1 ≤ r
  le : r ≤ n
  small : r < n → tailSq n s r < delta
  least : 1 < r → delta ≤ tailSq n s (r - 1)

/-- C105: the rank chosen by the truncated decomposition. -/
theorem svdRank_spec {n : Nat} {s : List ℝ} {delta : ℝ} (hn : 0 < n) (hs : n ≤ s.length) :
    ∃ r, svdRank n s delta = .ok r ∧ RankSpec n s delta r := by
  obtain ⟨t, h1, h2⟩ := forN_spec (body := rankStep n s delta) (n := n) (s := ⟨0, n, false⟩)
    (I := fun ii t => (t.stop = true → RankSpec n s delta t.rank) ∧
      (t.stop = false → ii < n ∧ t.rank = n - ii ∧ t.sum = tailSq n s (n - ii) ∧ (0 < ii → t.sum < delta)))
    ⟨by simp, fun _ => ⟨hn, rfl, by simp [tailSq], by simp⟩⟩
    (by
      rintro ii hii ⟨sm, rk, st⟩ ⟨i1, i2⟩
      cases st with
      | true =>
        refine ⟨⟨sm, rk, true⟩, rfl, fun _ => i1 rfl, fun h => by simp at h⟩
      | false =>
        obtain ⟨-, j1, j2, j3⟩ := i2 rfl
        dsimp only at j1 j2 j3
        have hp : tailSq n s (n - ii - 1) = sm + s.getD (n - ii - 1) 0 ^ 2 := by
          rw [tailSq_pred (by omega), j2, show n - ii - 1 + 1 = n - ii by omega]
        rw [rankStep]
        simp only [Bool.false_eq_true, if_false]
        rw [rd_getD 0 (by omega), bind_ok, ← hp]
        by_cases hd : tailSq n s (n - ii - 1) ≥ delta
        · rw [if_pos hd]
          refine ⟨_, rfl, fun _ => ⟨by dsimp only; omega, by dsimp only; omega, fun h => ?_, fun h => ?_⟩, fun h => by simp at h⟩
          · dsimp only at h ⊢; rw [j1, ← j2]; exact j3 (by omega)
          · dsimp only; rw [j1]; exact hd
        · rw [if_neg hd]
          push Not at hd
          by_cases hr : rk = 1
          · rw [if_pos hr]
            refine ⟨_, rfl, fun _ => ⟨by dsimp only; omega, by dsimp only; omega, fun h => ?_, fun h => ?_⟩, fun h => by simp at h⟩
            · dsimp only at h ⊢; rw [j1, ← j2]; exact j3 (by omega)
            · dsimp only at h; omega
          · rw [if_neg hr]
            refine ⟨_, rfl, fun h => by simp at h, fun _ => ⟨by omega, by dsimp only; omega, ?_, fun _ => hd⟩⟩
            dsimp only
            rw [show n - (ii + 1) = n - ii - 1 by omega])
  have hst : t.stop = true := by
    by_contra h
    have := (h2.2 (by simpa using h)).1
    omega
  exact ⟨t.rank, by rw [svdRank, h1, bind_ok, pure_eq_ok], h2.1 hst⟩

/-- A decomposition `M = u diag(s) vt` of an `n × n` matrix in column-major storage, with orthonormal columns of `u`,
orthonormal rows of `vt`, and nonnegative decreasing `s`. -/
structure SvdGood (n : Nat) (M : List ℝ) (w : Svd) : Prop where
  lu : w.u.length = n * n
  ls : w.s.length = n
  lvt : w.vt.length = n * n
  prod : ∀ i < n, ∀ j < n, ent n M i j = ∑ p ∈ range n, ent n w.u i p * (w.s.getD p 0 * ent n w.vt p j)
  uon : ∀ p < n, ∀ q < n, ∑ i ∈ range n, ent n w.u i p * ent n w.u i q = if p = q then 1 else 0
  von : ∀ p < n, ∀ q < n, ∑ j ∈ range n, ent n w.vt p j * ent n w.vt q j = if p = q then 1 else 0
  nonneg : ∀ p < n, 0 ≤ w.s.getD p 0
  anti : ∀ p q, p ≤ q → q < n → w.s.getD q 0 ≤ w.s.getD p 0

/-- Contract of the singular value decomposition of square matrices. -/
def SvdLaw (svd : Nat → Nat → List ℝ → C Svd) : Prop :=
  ∀ n M, 0 < n → M.length = n * n → ∃ w, svd n n M = .ok w ∧ SvdGood n M w

/-- What the truncated decomposition returns: the leading parts of an exact decomposition `w`. -/
structure TsvdGood (n : Nat) (w : Svd) (delta : ℝ) (t : Tsvd) : Prop where
  rank : RankSpec n w.s delta t.rank
  lu : t.u.length = n * t.rank
  ls : t.s.length = t.rank
  lvt : t.vt.length = t.rank * n
  u : ∀ i < n, ∀ p < t.rank, ent n t.u i p = ent n w.u i p
  s : ∀ p < t.rank, t.s.getD p 0 = w.s.getD p 0
  vt : ∀ p < t.rank, ∀ j < n, ent t.rank t.vt p j = ent n w.vt p j

/-- C105: the truncated decomposition keeps the leading parts of an exact one. -/
theorem truncSvd_ok {svd : Nat → Nat → List ℝ → C Svd} (hsvd : SvdLaw svd) {n : Nat} {M : List ℝ} (hn : 0 < n)
    (hM : M.length = n * n) (delta : ℝ) :
    ∃ w t, truncSvd svd n n M delta = .ok t ∧ SvdGood n M w ∧ TsvdGood n w delta t := by
  obtain ⟨w, h1, h2⟩ := hsvd n M hn hM
  obtain ⟨r, h3, h4⟩ := svdRank_spec (delta := delta) hn (le_of_eq h2.ls.symm)
  have hr := h4.le
  have hle : r * n ≤ n * n := Nat.mul_le_mul_right _ hr
  have e1 : collect (r * n) (fun i => rd w.u i) = .ok ((List.range (r * n)).map (fun i => w.u.getD i 0)) :=
    collect_ok _ (fun i hi => rd_getD 0 (by rw [h2.lu]; omega))
  have e2 : forN n (fun ii => forN r (fun jj vt => do
      let x ← rd w.vt (ii * n + jj)
      wr vt (ii * r + jj) x)) (List.replicate (r * n) 0) = .ok (cm r n (fun p j => ent n w.vt p j)) := by
    refine forN_fill_cm _ (by simp) ?_
    intro j hj p hp b hb
    rw [rd_getD 0 (by rw [h2.lvt]; exact cm_idx_lt (by omega) hj), bind_ok]
    rfl
  have e3 : collect r (fun i => rd w.s i) = .ok ((List.range r).map (fun i => w.s.getD i 0)) :=
    collect_ok _ (fun i hi => rd_getD 0 (by rw [h2.ls]; omega))
  refine ⟨w, ⟨r, (List.range (r * n)).map (fun i => w.u.getD i 0), (List.range r).map (fun i => w.s.getD i 0),
    cm r n (fun p j => ent n w.vt p j)⟩, ?_, h2, ?_⟩
  · rw [truncSvd, h1, bind_ok, Nat.min_self, h3, bind_ok, e1, bind_ok, e2, bind_ok, e3, bind_ok, pure_eq_ok]
  · refine ⟨h4, by simp [Nat.mul_comm], by simp, by simp, ?_, ?_, ?_⟩
    · intro i hi p hp
      dsimp only at hp ⊢
      rw [ent, ent]
      have := cm_idx_lt hi hp
      rw [List.getD_eq_getElem?_getD, List.getElem?_map, List.getElem?_range (by rw [Nat.mul_comm r]; exact this)]
      rfl
    · intro p hp
      dsimp only at hp ⊢
      rw [List.getD_eq_getElem?_getD, List.getElem?_map, List.getElem?_range hp]
      rfl
    · intro p hp j hj
      dsimp only at hp ⊢
      rw [ent, getD_cm _ _ hp hj]

end C3.Round

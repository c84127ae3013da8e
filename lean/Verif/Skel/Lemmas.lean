/-
C138: lemmas about the loops of `maxvol_rhs`.
-/
import Verif.Skel.Model
import Verif.Core.FillV
import Verif.Core.Fill
import Mathlib.LinearAlgebra.Matrix.Determinant.Basic
import Mathlib.LinearAlgebra.Matrix.NonsingularInverse
import Mathlib.Logic.Equiv.Basic
import Mathlib.Tactic.FieldSimp
import Mathlib.Tactic.Ring
import Mathlib.Tactic.Linarith

namespace C3.Sk
open Finset

/-! ### Largest entry -/

section Max
variable {K : Type} [Field K] [LinearOrder K]

theorem maxabs_ok {a : List K} {N : Nat} (hN : 0 < N) (ha : N ≤ a.length) :
    ∃ m, m < N ∧ maxabs a N = .ok (|a.getD m 0|, m) ∧ ∀ i < N, |a.getD i 0| ≤ |a.getD m 0| := by
  obtain ⟨s, h1, h2, h3, h4⟩ := forR_spec (a := 1) (b := N) (s := (|a.getD 0 0|, 0))
    (body := fun ii (s : K × Nat) => do
      let v ← rd a ii
      .ok (if |v| > s.1 then (|v|, ii) else s))
    (I := fun k s => s.2 < N ∧ s.1 = |a.getD s.2 0| ∧ ∀ i < k, |a.getD i 0| ≤ s.1) (by omega)
    ⟨hN, rfl, fun i hi => by have : i = 0 := by omega
                             subst this; exact le_refl _⟩
    (by
      rintro k hk1 hk2 s ⟨h2, h3, h4⟩
      refine ⟨if |a.getD k 0| > s.1 then (|a.getD k 0|, k) else s, by rw [rd_getD 0 (by omega), bind_ok], ?_⟩
      by_cases h : |a.getD k 0| > s.1
      · rw [if_pos h]
        refine ⟨hk2, rfl, fun i hi => ?_⟩
        by_cases e : i = k
        · subst e; exact le_refl _
        · exact le_trans (h4 i (by omega)) h.le
      · rw [if_neg h]
        refine ⟨h2, h3, fun i hi => ?_⟩
        by_cases e : i = k
        · subst e; exact not_lt.1 h
        · exact h4 i (by omega))
  refine ⟨s.2, h2, ?_, fun i hi => by rw [← h3]; exact h4 i hi⟩
  rw [maxabs, rd_getD 0 (by omega), bind_ok, h1, ← h3]

end Max

/-! ### Exchanges -/

section Swap
variable {α : Type}

theorem swapAt_map {N i j : Nat} (f : Nat → α) (hi : i < N) (hj : j < N) :
    swapAt ((List.range N).map f) i j = .ok ((List.range N).map fun k => f (Equiv.swap i j k)) := by
  have e1 : rd ((List.range N).map f) j = .ok (f j) := rd_of_getElem? (by simp [hj])
  have e2 : rd ((List.range N).map f) i = .ok (f i) := rd_of_getElem? (by simp [hi])
  rw [swapAt, e1, bind_ok, e2, bind_ok, wr_ok _ (by simpa using hj), bind_ok, wr_ok _ (by simpa using hi)]
  congr 1
  apply List.ext_getElem?
  intro k
  by_cases hk : k < N
  · rw [List.getElem?_set, List.getElem?_set]
    simp only [List.length_set, List.length_map, List.length_range, List.getElem?_map, List.getElem?_range hk, Option.map_some]
    by_cases h1 : i = k
    · subst h1; rw [if_pos rfl, if_pos hi, Equiv.swap_apply_left]
    · rw [if_neg h1]
      by_cases h2 : j = k
      · subst h2; rw [if_pos rfl, if_pos hj, Equiv.swap_apply_right]
      · rw [if_neg h2, Equiv.swap_apply_of_ne_of_ne (Ne.symm h1) (Ne.symm h2)]
  · rw [List.getElem?_eq_none (by simp; omega), List.getElem?_eq_none (by simp; omega)]

theorem swapAt_cm {n m c i j : Nat} (g : Nat → Nat → α) (hi : i < n) (hj : j < n) (hc : c < m) :
    swapAt (cm n m g) (c * n + i) (c * n + j)
      = .ok (cm n m fun a b => if b = c then g (Equiv.swap i j a) b else g a b) := by
  rw [cm, swapAt_map _ (cm_idx_lt hi hc) (cm_idx_lt hj hc), cm]
  congr 1
  apply List.map_congr_left
  intro k hk
  have hk := List.mem_range.1 hk
  have hn : 0 < n := by omega
  have e := Nat.div_add_mod' k n
  have hm := Nat.mod_lt k hn
  by_cases h : k / n = c
  · rw [if_pos h]
    by_cases h1 : k % n = i
    · have : k = c * n + i := by rw [← h, ← h1]; exact e.symm
      rw [this, Equiv.swap_apply_left, cm_mod hj, cm_div hj, cm_mod hi, cm_div hi, Equiv.swap_apply_left]
    · by_cases h2 : k % n = j
      · have : k = c * n + j := by rw [← h, ← h2]; exact e.symm
        rw [this, Equiv.swap_apply_right, cm_mod hj, cm_div hj, cm_mod hi, cm_div hi, Equiv.swap_apply_right]
      · rw [Equiv.swap_apply_of_ne_of_ne h1 h2, Equiv.swap_apply_of_ne_of_ne]
        · intro h3; apply h1; rw [h3, cm_mod hi]
        · intro h3; apply h2; rw [h3, cm_mod hj]
  · rw [if_neg h, Equiv.swap_apply_of_ne_of_ne]
    · intro h3; apply h; rw [h3, cm_div hi]
    · intro h3; apply h; rw [h3, cm_div hj]

/-- The permutation given by the first exchanges. -/
def prm (ipiv : List Nat) : Nat → Equiv.Perm Nat
  | 0 => 1
  | k + 1 => prm ipiv k * Equiv.swap k (ipiv.getD k 0)

theorem swap_lt {n i j k : Nat} (hi : i < n) (hj : j < n) (hk : k < n) : Equiv.swap i j k < n := by
  rw [Equiv.swap_apply_def]; split_ifs <;> assumption

theorem prm_lt {n r : Nat} {ipiv : List Nat} (hr : r ≤ n) (hp : ∀ k < r, ipiv.getD k 0 < n) : ∀ k ≤ r, ∀ i < n, prm ipiv k i < n
  | 0, _, i, hi => hi
  | k + 1, hk, i, hi => prm_lt hr hp k (by omega) _ (swap_lt (by omega) (hp k (by omega)) hi)

theorem pivRows_ok {n r : Nat} {ipiv : List Nat} (hr : r ≤ n) (hl : r ≤ ipiv.length) (hp : ∀ k < r, ipiv.getD k 0 < n) :
    pivRows n r ipiv = .ok ((List.range n).map (prm ipiv r)) := by
  have h0 : List.range n = (List.range n).map (prm ipiv 0) := by simp [prm]
  have h1 : pivRows n r ipiv = forN r (fun ii al => do
      let jj ← rd ipiv ii
      if jj ≠ ii then swapAt al ii jj else .ok al) ((List.range n).map (prm ipiv 0)) := by rw [← h0]; rfl
  rw [h1]
  refine forN_traj (fun k => (List.range n).map (prm ipiv k)) (fun k hk => ?_)
  rw [rd_getD 0 (by omega), bind_ok]
  split
  · rw [swapAt_map _ (by omega) (hp k hk)]; rfl
  · next h =>
    rw [not_not] at h
    rw [prm, h, Equiv.swap_self]; rfl

theorem rowsToTop_ok {n r : Nat} {ipiv : List Nat} (g : Nat → Nat → α) (hr : r ≤ n) (hl : r ≤ ipiv.length)
    (hp : ∀ k < r, ipiv.getD k 0 < n) :
    rowsToTop (cm n r g) ipiv n r = .ok (cm n r fun i j => g (prm ipiv r i) j) := by
  have h0 : cm n r g = cm n r fun i j => if j < 0 then g (prm ipiv r i) j else g i j := by simp
  have h1 : (cm n r fun i j => g (prm ipiv r i) j) = cm n r fun i j => if j < r then g (prm ipiv r i) j else g i j :=
    cm_congr fun i _ j hj => by rw [if_pos hj]
  rw [rowsToTop, h1, h0]
  refine forN_traj (fun c => cm n r fun i j => if j < c then g (prm ipiv r i) j else g i j) (fun c hc => ?_)
  have h2 : (cm n r fun i j => if j < c then g (prm ipiv r i) j else g i j)
      = cm n r fun i j => if j < c then g (prm ipiv r i) j else if j = c then g (prm ipiv 0 i) j else g i j := by
    refine cm_congr fun i _ j _ => ?_
    split_ifs <;> rfl
  have h3 : (cm n r fun i j => if j < c + 1 then g (prm ipiv r i) j else g i j)
      = cm n r fun i j => if j < c then g (prm ipiv r i) j else if j = c then g (prm ipiv r i) j else g i j := by
    refine cm_congr fun i _ j _ => ?_
    split_ifs <;> first | rfl | omega
  rw [h2, h3]
  refine forN_traj (fun k => cm n r fun i j => if j < c then g (prm ipiv r i) j else if j = c then g (prm ipiv k i) j else g i j)
    (fun k hk => ?_)
  rw [rd_getD 0 (by omega), bind_ok, swapAt_cm _ (by omega) (hp k hk) hc]
  congr 1
  refine cm_congr fun i _ j _ => ?_
  split_ifs <;> first | rfl | omega

end Swap

theorem getrows_ok {α : Type} {n r : Nat} {A top : List α} {rows : List Nat} (d : α) (hA : n * r ≤ A.length) (ht : top.length = r * r)
    (hl : r ≤ rows.length) (hp : ∀ i < r, rows.getD i 0 < n) :
    getrows A top rows n r = .ok (cm r r fun i j => A.getD (j * n + rows.getD i 0) d) := by
  rw [getrows, forN_fill_cm _ ht]
  intro j hj i hi b _
  rw [rd_getD 0 (by omega), bind_ok, rd_getD d (lt_of_lt_of_le (cm_idx_lt (hp i hi) hj) hA), bind_ok]

/-! ### Vectors and updates -/

section Vec
variable {K : Type} [Field K] {n r row col : Nat}

theorem vecY_ok (g : Nat → Nat → K) (hr : row < n) (hc : col < r) :
    vecY n r row col (cm n r g) = .ok ((List.range r).map fun j => g row j - if j = col then 1 else 0) := by
  rw [vecY, forN_fill_all (fun j => g row j) (by simp) (by
    intro i hi b _; rw [rd_cm g hr hi, bind_ok]), bind_ok, rd_of_getElem? (v := g row col) (by simp [hc]), bind_ok,
    wr_ok _ (by simpa using hc)]
  congr 1
  apply List.ext_getElem?
  intro k
  rw [List.getElem?_set]
  by_cases hk : k < r
  · by_cases h : col = k
    · subst h; simp [hk]
    · simp [hk, h, Ne.symm h]
  · rw [if_neg (by omega), List.getElem?_eq_none (by simp; omega), List.getElem?_eq_none (by simp; omega)]

theorem vecX_ok (g : Nat → Nat → K) (hrn : r ≤ n) (hr : row < n) (hc : col < r) :
    vecX n r row col (cm n r g)
      = .ok ((List.range n).map fun i => g i col - (if i = col then 1 else 0) + if i = row then 1 else 0) := by
  have hx : (do
      let x ← forN r (fun ii x => do
        let b ← rd (cm n r g) (col * n + ii)
        wr x ii b) (List.replicate n (0 : K))
      forR r n (fun ii x => do
        let b ← rd (cm n r g) (col * n + ii)
        wr x ii b) x) = .ok ((List.range n).map fun i => g i col) := by
    refine FillsV.finish (g := fun i => g i col) (T := fun p => (∃ i < r, p = i) ∨ ∃ i, r ≤ i ∧ i < n ∧ p = i)
      (FillsV.seq (FillsV.forN fun i hi => ?_) (FillsV.forR fun i hi1 hi2 => ?_)) (fun p hp => ?_) (by simp)
    · exact FillsV.bind (rd_cm g (by omega) hc) (FillsV.wr (by omega) rfl)
    · exact FillsV.bind (rd_cm g hi2 hc) (FillsV.wr hi2 rfl)
    · by_cases h : p < r
      · exact .inl ⟨p, h, rfl⟩
      · exact .inr ⟨p, by omega, hp, rfl⟩
  rw [vecX, bind_of_bind hx, rd_of_getElem? (v := g col col) (by simp [show col < n by omega]), bind_ok,
    wr_ok _ (by simp; omega), bind_ok]
  have e : ((List.range n).map fun i => g i col).set col (g col col - 1)
      = (List.range n).map fun i => g i col - if i = col then 1 else 0 := by
    apply List.ext_getElem?
    intro k
    rw [List.getElem?_set]
    by_cases hk : k < n
    · by_cases h : col = k
      · subst h; simp [hk]
      · simp [hk, h, Ne.symm h]
    · rw [if_neg (by omega), List.getElem?_eq_none (by simp; omega), List.getElem?_eq_none (by simp; omega)]
  rw [e, rd_of_getElem? (v := g row col - if row = col then 1 else 0) (by simp [hr]), bind_ok, wr_ok _ (by simpa using hr)]
  congr 1
  apply List.ext_getElem?
  intro k
  rw [List.getElem?_set]
  by_cases hk : k < n
  · by_cases h : row = k
    · subst h; simp [hk]
    · simp [hk, h, Ne.symm h]
  · rw [if_neg (by omega), List.getElem?_eq_none (by simp; omega), List.getElem?_eq_none (by simp; omega)]

theorem vecT_ok (g : Nat → Nat → K) (hr : row < n) (hc : col < n) :
    vecT n r row col (cm n r g) = .ok ((List.range r).map fun j => g row j - g col j) := by
  rw [vecT, forN_fill_all (fun j => g row j - g col j) (by simp)]
  intro i hi b _
  rw [rd_cm g hr hi, bind_ok, rd_cm g hc hi, bind_ok]

theorem dger_ok {m c : Nat} (al : K) (x y : Nat → K) (g : Nat → Nat → K) :
    dger m c al ((List.range m).map x) ((List.range c).map y) (cm m c g) m = .ok (cm m c fun i j => g i j + al * x i * y j) := by
  have h0 : cm m c g = cm m c fun i j => if j < 0 then g i j + al * x i * y j else g i j := by simp
  have h1 : (cm m c fun i j => g i j + al * x i * y j) = cm m c fun i j => if j < c then g i j + al * x i * y j else g i j :=
    cm_congr fun i _ j hj => by rw [if_pos hj]
  rw [dger, h1, h0]
  refine forN_traj (fun k => cm m c fun i j => if j < k then g i j + al * x i * y j else g i j) (fun k hk => ?_)
  have h2 : (cm m c fun i j => if j < k then g i j + al * x i * y j else g i j)
      = cm m c fun i j => if j < k ∨ j = k ∧ i < 0 then g i j + al * x i * y j else g i j := by simp
  have h3 : (cm m c fun i j => if j < k + 1 then g i j + al * x i * y j else g i j)
      = cm m c fun i j => if j < k ∨ j = k ∧ i < m then g i j + al * x i * y j else g i j := by
    refine cm_congr fun i hi j _ => ?_
    split_ifs <;> first | rfl | omega
  rw [h2, h3]
  refine forN_traj (fun l => cm m c fun i j => if j < k ∨ j = k ∧ i < l then g i j + al * x i * y j else g i j) (fun l hl => ?_)
  rw [rd_cm _ hl hk, bind_ok, rd_of_getElem? (v := x l) (by simp [hl]), bind_ok, rd_of_getElem? (v := y k) (by simp [hk]), bind_ok,
    wr_ok _ (by rw [cm_length]; exact cm_idx_lt hl hk), if_neg (by omega)]
  congr 1
  refine ext_cm (n := m) (m := c) (by simp) (by simp) fun i hi j hj => ?_
  rw [List.getElem?_set, cm_getElem? _ hi hj, cm_getElem? _ hi hj, cm_length]
  by_cases h : k * m + l = j * m + i
  · have e1 := congrArg (· % m) h
    have e2 := congrArg (· / m) h
    simp only [cm_mod hl, cm_mod hi, cm_div hl, cm_div hi] at e1 e2
    subst e1; subst e2
    rw [if_pos rfl, if_pos (cm_idx_lt hl hk), if_pos (by omega)]
  · rw [if_neg h]
    have : ¬ (j = k ∧ i = l) := fun e => h (by rw [e.1, e.2])
    split_ifs <;> first | rfl | omega

end Vec

end C3.Sk

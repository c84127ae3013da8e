/- C56: the index sets after a sweep step are the selected rows. -/
import Verif.Cross.Props
import Verif.Arr.Props

set_option linter.unusedSectionVars false

namespace C3.Cross
open C3.Arr

/-- Splitting a row number of an `r n` row matrix. -/
theorem split_row {rnd : ℚ → ℚ} (hr : RoundNearest rnd) {r n row : Nat} (hn53 : n ≤ 2 ^ 53) (hr64 : r < 2 ^ 64)
    (h64 : row < 2 ^ 64) (hrow : row < r * n) :
    bigToMulti rnd row 2 [r, n] [0, 0] = .ok [row % r, row / r] := by
  have hr0 : 0 < r := Nat.pos_of_ne_zero fun h => by subst h; simp at hrow
  have hn0 : 0 < n := Nat.pos_of_ne_zero fun h => by subst h; simp at hrow
  obtain ⟨m, h1, h2, h3, h4⟩ := bigToMulti_value_partial hr (ns := [r, n]) (multi := [0, 0]) (big := row) (by simp) (by simp)
    rfl (by simp; omega) (by
      intro k h1 h2
      have : k = 1 := by simp at h2; omega
      subst this; simpa using hn53) (by simpa using hr64) h64 (by simpa using hrow)
  have hq : row / r < n := by rw [Nat.div_lt_iff_lt_mul hr0, Nat.mul_comm]; exact hrow
  have e : m = [row % r, row / r] := by
    refine colPos_inj [r, n] m [row % r, row / r] h2 rfl h3 ?_ ?_
    · intro k hk
      have : k = 0 ∨ k = 1 := by simp at hk; omega
      rcases this with rfl | rfl
      · simpa using Nat.mod_lt _ hr0
      · simpa using hq
    · rw [h4]; simp only [C3.Tt.colPos, Nat.mul_zero, Nat.add_zero]
      have := Nat.mod_add_div row r
      omega
  rw [← e]; exact h1

/-- **C56** Left-to-right: after a step, entry `jj` of the next left set is entry `row % r` of the current left set followed
by the node `row / r`, for every selected row; for all sets, sizes and row selections. -/
theorem updateLeft_value {rnd : ℚ → ℚ} (hr : RoundNearest rnd) {kk r n r' : Nat} {left next : List (List Nat)} {rows : List Nat}
    (hn53 : n ≤ 2 ^ 53) (h64 : r * n < 2 ^ 64) (hr64 : r < 2 ^ 64) (hl : left.length = r) (hll : ∀ x ∈ left, x.length = kk)
    (hrl : rows.length = r') (hrow : ∀ x ∈ rows, x < r * n) (hnl : next.length = r') (hnn : ∀ x ∈ next, x.length = kk + 1) :
    updateLeft rnd kk r n left rows r' next = .ok (rows.map (fun row => left.getD (row % r) [] ++ [row / r])) := by
  obtain ⟨s, h1, h2, h3, h4⟩ := forN_spec (n := r') (s := next)
    (body := fun jj next => do
      let row ← rd rows jj
      let m ← Arr.bigToMulti rnd row 2 [r, n] [0, 0]
      let a ← rd m 0
      let b ← rd m 1
      let ix ← rd next jj
      let src ← rd left a
      let p ← take kk src
      let ix ← if kk ≤ ix.length then .ok (p ++ ix.drop kk) else .error .oob
      let ix ← wr ix kk b
      wr next jj ix)
    (I := fun j s => s.length = r' ∧ (∀ k < j, s[k]? = some (left.getD (rows.getD k 0 % r) [] ++ [rows.getD k 0 / r])) ∧
      ∀ x ∈ s.drop j, x.length = kk + 1)
    ⟨hnl, fun k hk => by omega, by simpa using hnn⟩
    (by
      rintro j hj s ⟨hs, ha, hb⟩
      have hrow' : rows.getD j 0 < r * n := by
        rw [List.getD_eq_getElem?_getD, List.getElem?_eq_getElem (by omega)]
        exact hrow _ (List.getElem_mem _)
      have hr0 : 0 < r := Nat.pos_of_ne_zero fun h => by subst h; simp at hrow'
      have hm : rows.getD j 0 % r < left.length := by rw [hl]; exact Nat.mod_lt _ hr0
      have hsj : s[j]? = some s[j] := List.getElem?_eq_getElem (by omega)
      have hsl : (s[j]).length = kk + 1 := hb _ (by
        rw [List.drop_eq_getElem_cons (by omega)]; exact List.mem_cons_self)
      have hsrc : (left.getD (rows.getD j 0 % r) []).length = kk := by
        rw [List.getD_eq_getElem?_getD, List.getElem?_eq_getElem hm]
        exact hll _ (List.getElem_mem _)
      have hd1 : ∃ z, (s[j]).drop kk = [z] := List.length_eq_one_iff.1 (by rw [List.length_drop, hsl]; omega)
      obtain ⟨z, hz⟩ := hd1
      refine ⟨s.set j (left.getD (rows.getD j 0 % r) [] ++ [rows.getD j 0 / r]), ?_, by simpa using hs, ?_, ?_⟩
      · rw [rd_getD 0 (by omega), bind_ok, split_row hr hn53 hr64 (by omega) hrow', bind_ok, rd_ok (by simp), bind_ok,
          rd_ok (by simp), bind_ok, rd_of_getElem? hsj, bind_ok]
        simp only [List.getElem_cons_zero, List.getElem_cons_succ]
        rw [rd_getD [] hm, bind_ok, take_all hsrc, bind_ok, if_pos (by omega), hz, bind_ok,
          wr_ok _ (by rw [List.length_append, hsrc, List.length_singleton]; omega), bind_ok,
          List.set_append_right _ _ (by omega), hsrc, Nat.sub_self, List.set_cons_zero, wr_ok _ (by omega)]
      · intro k hk
        by_cases e : j = k
        · subst e; rw [List.getElem?_set_self (by omega)]
        · rw [List.getElem?_set_ne e]; exact ha k (by omega)
      · intro x hx
        rw [List.drop_set_of_lt (by omega)] at hx
        exact hb x (by
          rw [List.drop_eq_getElem_cons (by omega)]; exact List.mem_cons_of_mem _ hx))
  rw [updateLeft, h1]
  congr 1
  apply List.ext_getElem?
  intro k
  by_cases hk : k < r'
  · rw [h3 k hk, List.getElem?_map, List.getElem?_eq_getElem (by omega : k < rows.length)]
    simp [List.getElem?_eq_getElem (by omega : k < rows.length)]
  · rw [List.getElem?_eq_none (by omega), List.getElem?_eq_none (by simp; omega)]

/-- **C56** Right-to-left: entry `jj` of the next right set is the node `row / r` followed by entry `row % r` of the current
right set, where the rows of the matrix run over `rr` right indices per node — proved when the two ranks of the core
agree (`rr = r`). Missing: different ranks, for which the row number is split with the wrong rank
(`updateRight_counterexample`, `updateRight_oob_counterexample`). -/
theorem updateRight_value_partial {rnd : ℚ → ℚ} (hr : RoundNearest rnd) {r rr n dr N : Nat} {right next : List (List Nat)}
    {rows : List Nat} (hrr : rr = r)
    (hn53 : n ≤ 2 ^ 53) (h64 : rr * n < 2 ^ 64) (hr64 : rr < 2 ^ 64) (hl : right.length = rr) (hll : ∀ x ∈ right, x.length = dr)
    (hrl : rows.length = N) (hrow : ∀ x ∈ rows, x < rr * n) (hnl : next.length = N) (hnn : ∀ x ∈ next, x.length = dr + 1) :
    updateRight rnd r n dr right rows N next = .ok (rows.map (fun row => (row / rr) :: right.getD (row % rr) [])) := by
  subst hrr
  obtain ⟨s, h1, h2, h3, h4⟩ := forN_spec (n := N) (s := next)
    (body := fun jj next => do
      let row ← rd rows jj
      let m ← Arr.bigToMulti rnd row 2 [rr, n] [0, 0]
      let a ← rd m 0
      let b ← rd m 1
      let ix ← rd next jj
      let src ← rd right a
      let p ← take dr src
      let ix ← if dr + 1 ≤ ix.length then .ok (ix.take 1 ++ p ++ ix.drop (dr + 1)) else .error .oob
      let ix ← wr ix 0 b
      wr next jj ix)
    (I := fun j s => s.length = N ∧ (∀ k < j, s[k]? = some ((rows.getD k 0 / rr) :: right.getD (rows.getD k 0 % rr) [])) ∧
      ∀ x ∈ s.drop j, x.length = dr + 1)
    ⟨hnl, fun k hk => by omega, by simpa using hnn⟩
    (by
      rintro j hj s ⟨hs, ha, hb⟩
      have hrow' : rows.getD j 0 < rr * n := by
        rw [List.getD_eq_getElem?_getD, List.getElem?_eq_getElem (by omega)]
        exact hrow _ (List.getElem_mem _)
      have hr0 : 0 < rr := Nat.pos_of_ne_zero fun h => by subst h; simp at hrow'
      have hm : rows.getD j 0 % rr < right.length := by rw [hl]; exact Nat.mod_lt _ hr0
      have hsj : s[j]? = some s[j] := List.getElem?_eq_getElem (by omega)
      have hsl : (s[j]).length = dr + 1 := hb _ (by
        rw [List.drop_eq_getElem_cons (by omega)]; exact List.mem_cons_self)
      have hsrc : (right.getD (rows.getD j 0 % rr) []).length = dr := by
        rw [List.getD_eq_getElem?_getD, List.getElem?_eq_getElem hm]
        exact hll _ (List.getElem_mem _)
      have hd1 : ∃ z, (s[j]).take 1 = [z] := List.length_eq_one_iff.1 (by rw [List.length_take, hsl]; omega)
      obtain ⟨z, hz⟩ := hd1
      refine ⟨s.set j ((rows.getD j 0 / rr) :: right.getD (rows.getD j 0 % rr) []), ?_, by simpa using hs, ?_, ?_⟩
      · rw [rd_getD 0 (by omega), bind_ok, split_row hr hn53 hr64 (by omega) hrow', bind_ok, rd_ok (by simp), bind_ok,
          rd_ok (by simp), bind_ok, rd_of_getElem? hsj, bind_ok]
        simp only [List.getElem_cons_zero, List.getElem_cons_succ]
        rw [rd_getD [] hm, bind_ok, take_all hsrc, bind_ok, if_pos (by omega), hz, bind_ok,
          List.drop_of_length_le (by omega), List.append_nil, wr_ok _ (by simp), bind_ok, wr_ok _ (by omega)]
        simp
      · intro k hk
        by_cases e : j = k
        · subst e; rw [List.getElem?_set_self (by omega)]
        · rw [List.getElem?_set_ne e]; exact ha k (by omega)
      · intro x hx
        rw [List.drop_set_of_lt (by omega)] at hx
        exact hb x (by
          rw [List.drop_eq_getElem_cons (by omega)]; exact List.mem_cons_of_mem _ hx))
  rw [updateRight, h1]
  congr 1
  apply List.ext_getElem?
  intro k
  by_cases hk : k < N
  · rw [h3 k hk, List.getElem?_map, List.getElem?_eq_getElem (by omega : k < rows.length)]
    simp [List.getElem?_eq_getElem (by omega : k < rows.length)]
  · rw [List.getElem?_eq_none (by omega), List.getElem?_eq_none (by simp; omega)]

/-- **C56** Core with left rank 1, right rank 2, two nodes: row 1 of the `(2·2) x 1` matrix is node 0 with right index
number 1, but the code selects node 1 with right index number 0. -/
theorem updateRight_counterexample {rnd : ℚ → ℚ} (hr : RoundNearest rnd) :
    updateRight rnd 1 2 1 [[7], [8]] [1] 1 [[0, 0]] = .ok [[1, 7]] ∧ (1 / 2) :: [[7], [8]].getD (1 % 2) [] = [0, 8] := by
  refine ⟨?_, rfl⟩
  have h : forN 1 (fun jj next => do
      let row ← rd [1] jj
      let m ← Arr.bigToMulti rnd row 2 [1, 2] [0, 0]
      let a ← rd m 0
      let b ← rd m 1
      let ix ← rd next jj
      let src ← rd [[7], [8]] a
      let p ← take 1 src
      let ix ← if 1 + 1 ≤ ix.length then .ok (ix.take 1 ++ p ++ ix.drop (1 + 1)) else .error .oob
      let ix ← wr ix 0 b
      wr next jj ix) [[0, 0]] = (do
        let m ← Arr.bigToMulti rnd 1 2 [1, 2] [0, 0]
        let a ← rd m 0
        let b ← rd m 1
        let src ← rd [[7], [8]] a
        let p ← take 1 src
        let ix ← wr ([0] ++ p ++ []) 0 b
        wr [[0, 0]] 0 ix) := rfl
  rw [updateRight, h, split_row hr (by norm_num) (by norm_num) (by norm_num) (by norm_num), bind_ok]
  rfl

/-- **C56** Core with left rank 2, right rank 1: row 1 (node 1 of the only right index) makes the code read right index
number 1, which does not exist. -/
theorem updateRight_oob_counterexample {rnd : ℚ → ℚ} (hr : RoundNearest rnd) :
    updateRight rnd 2 2 1 [[7]] [1, 0] 2 [[0, 0], [0, 0]] = .error .oob := by
  have h1 := split_row hr (r := 2) (n := 2) (row := 1) (by norm_num) (by norm_num) (by norm_num) (by norm_num)
  rw [updateRight, forN_succ, forN_succ]
  show Except.bind (Except.bind (.ok [[0, 0], [0, 0]]) _) _ = _
  rw [ebind_ok, rd_ok (by simp), bind_ok]
  simp only [List.getElem_cons_zero]
  rw [h1]
  rfl

example {rnd : ℚ → ℚ} (hr : RoundNearest rnd) := updateLeft_value hr (kk := 1) (r := 2) (n := 3) (r' := 2)
  (left := [[4], [5]]) (rows := [1, 4]) (next := [[0, 0], [0, 0]]) (by norm_num) (by norm_num) (by norm_num) rfl (by decide)
  rfl (by decide) rfl (by decide)
example {rnd : ℚ → ℚ} (hr : RoundNearest rnd) := updateRight_value_partial hr (r := 2) (rr := 2) (n := 3) (dr := 1) (N := 2)
  (right := [[4], [5]]) (rows := [1, 4]) (next := [[0, 0], [0, 0]]) rfl (by norm_num) (by norm_num) (by norm_num) rfl (by decide)
  rfl (by decide) rfl (by decide)

end C3.Cross

/-
Loop lemmas for code that fills buffers.
-/
import Verif.Core.Mem
import Mathlib.Tactic.Ring
import Mathlib.Tactic.Linarith

namespace C3
variable {α : Type}

/-- Writing positions `idx 0, ..., idx (n-1)` (pairwise different, in range). -/
theorem forN_scatter {n : Nat} {body : Nat → List α → C (List α)} {a : List α} (idx : Nat → Nat) (g : Nat → α)
    (hin : ∀ i < n, idx i < a.length) (hinj : ∀ i < n, ∀ j < n, idx i = idx j → i = j)
    (hb : ∀ i < n, ∀ b : List α, b.length = a.length →
      (∀ j, (∀ k < i, idx k ≠ j) → b[j]? = a[j]?) → (∀ k < i, b[idx k]? = some (g k)) →
      body i b = wr b (idx i) (g i)) :
    ∃ b, forN n body a = .ok b ∧ b.length = a.length ∧ (∀ i < n, b[idx i]? = some (g i)) ∧
      ∀ j, (∀ i < n, idx i ≠ j) → b[j]? = a[j]? := by
  obtain ⟨b, h1, h2⟩ := forN_spec
    (I := fun i (b : List α) => b.length = a.length ∧ (∀ k < i, b[idx k]? = some (g k)) ∧
      ∀ j, (∀ k < i, idx k ≠ j) → b[j]? = a[j]?)
    (n := n) (body := body) (s := a) ⟨rfl, by simp, by simp⟩
    (by
      rintro i hi b ⟨hl, hw, hu⟩
      have hlt : idx i < b.length := by rw [hl]; exact hin i hi
      refine ⟨_, by rw [hb i hi b hl hu hw, wr_ok _ hlt], by simpa using hl, ?_, ?_⟩
      · intro k hk
        by_cases hki : k = i
        · subst hki; simp [hlt]
        · have : idx i ≠ idx k := fun e => hki (hinj i hi k (by omega) e).symm
          rw [List.getElem?_set_ne this]; exact hw k (by omega)
      · intro j hj
        rw [List.getElem?_set_ne (hj i (by omega))]
        exact hu j (fun k hk => hj k (by omega)))
  exact ⟨b, h1, h2⟩

/-- Writing `n` consecutive positions starting at `off`. -/
theorem forN_fill {n off : Nat} {body : Nat → List α → C (List α)} {a : List α} (g : Nat → α)
    (hlen : off + n ≤ a.length)
    (hb : ∀ i < n, ∀ b : List α, b.length = a.length → body i b = wr b (off + i) (g i)) :
    forN n body a = .ok (a.take off ++ (List.range n).map g ++ a.drop (off + n)) := by
  obtain ⟨b, h1, hl, hw, hu⟩ := forN_scatter (n := n) (body := body) (a := a) (fun i => off + i) g
    (by intro i hi; omega) (by intro i _ j _ h; omega) (fun i hi b hl _ _ => hb i hi b hl)
  rw [h1]; congr 1
  apply List.ext_getElem?
  intro j
  by_cases h1 : j < off
  · rw [hu j (by intro i hi; omega), List.append_assoc, List.getElem?_append_left (by simp; omega),
      List.getElem?_take, if_pos h1]
  · by_cases h2 : j < off + n
    · have hh := hw (j - off) (by omega)
      have e : off + (j - off) = j := by omega
      rw [e] at hh
      rw [hh, List.append_assoc, List.getElem?_append_right (by simp; omega),
        List.getElem?_append_left (by simp; omega)]
      have e2 : j - (List.take off a).length = j - off := by simp; omega
      rw [e2, List.getElem?_map, List.getElem?_range (by omega)]; rfl
    · rw [hu j (by intro i hi; omega), List.getElem?_append_right (by simp; omega), List.getElem?_drop]
      congr 1; simp; omega

/-- Filling a whole buffer. -/
theorem forN_fill_all {n : Nat} {body : Nat → List α → C (List α)} {a : List α} (g : Nat → α)
    (hlen : a.length = n)
    (hb : ∀ i < n, ∀ b : List α, b.length = n → body i b = wr b i (g i)) :
    forN n body a = .ok ((List.range n).map g) := by
  rw [forN_fill (off := 0) g (by omega) (by intro i hi b hl; rw [Nat.zero_add]; exact hb i hi b (by omega))]
  simp [← hlen]

/-- `n × m` column-major buffer: entry `(i,j)` at position `j*n+i`. -/
def cm (n m : Nat) (g : Nat → Nat → α) : List α :=
  (List.range (n * m)).map (fun k => g (k % n) (k / n))

@[simp] theorem cm_length (n m : Nat) (g : Nat → Nat → α) : (cm n m g).length = n * m := by simp [cm]

theorem cm_idx_lt {n m i j : Nat} (hi : i < n) (hj : j < m) : j * n + i < n * m := by
  calc j * n + i < j * n + n := by omega
    _ = (j + 1) * n := by ring
    _ ≤ m * n := Nat.mul_le_mul_right _ hj
    _ = n * m := Nat.mul_comm _ _

theorem cm_mod {n i j : Nat} (hi : i < n) : (j * n + i) % n = i := by
  rw [Nat.mul_add_mod_self_right, Nat.mod_eq_of_lt hi]

theorem cm_div {n i j : Nat} (hi : i < n) : (j * n + i) / n = j := by
  rw [Nat.mul_comm, Nat.mul_add_div (by omega), Nat.div_eq_of_lt hi, Nat.add_zero]

theorem cm_getElem? {n m i j : Nat} (g : Nat → Nat → α) (hi : i < n) (hj : j < m) :
    (cm n m g)[j * n + i]? = some (g i j) := by
  rw [cm, List.getElem?_map, List.getElem?_range (cm_idx_lt hi hj), Option.map_some, cm_mod hi, cm_div hi]

theorem rd_cm {n m i j : Nat} (g : Nat → Nat → α) (hi : i < n) (hj : j < m) :
    rd (cm n m g) (j * n + i) = .ok (g i j) := rd_of_getElem? (cm_getElem? g hi hj)

theorem cm_congr {n m : Nat} {g h : Nat → Nat → α} (e : ∀ i < n, ∀ j < m, g i j = h i j) : cm n m g = cm n m h := by
  apply List.map_congr_left
  intro k hk
  have hk := List.mem_range.1 hk
  have hn : 0 < n := by rcases Nat.eq_zero_or_pos n with h | h; · subst h; simp at hk
                        · exact h
  exact e _ (Nat.mod_lt _ hn) _ ((Nat.div_lt_iff_lt_mul hn).2 (by rwa [Nat.mul_comm]))

/-- Every buffer of length `n*m` is a column-major matrix. -/
theorem eq_cm {n m : Nat} {a : List α} (d : α) (h : a.length = n * m) :
    a = cm n m (fun i j => (a[j * n + i]?).getD d) := by
  apply List.ext_getElem?
  intro k
  by_cases hk : k < n * m
  · have hn : 0 < n := by rcases Nat.eq_zero_or_pos n with h | h; · subst h; simp at hk
                          · exact h
    have e : k / n * n + k % n = k := Nat.div_add_mod' k n
    rw [cm, List.getElem?_map, List.getElem?_range hk, Option.map_some, e,
      List.getElem?_eq_getElem (by omega)]; rfl
  · rw [List.getElem?_eq_none (by omega), List.getElem?_eq_none (by simp; omega)]

theorem ext_cm {n m : Nat} {a b : List α} (ha : a.length = n * m) (hb : b.length = n * m)
    (h : ∀ i < n, ∀ j < m, a[j * n + i]? = b[j * n + i]?) : a = b := by
  apply List.ext_getElem?
  intro k
  by_cases hk : k < n * m
  · have hn : 0 < n := by rcases Nat.eq_zero_or_pos n with h | h; · subst h; simp at hk
                          · exact h
    have := h (k % n) (Nat.mod_lt _ hn) (k / n) ((Nat.div_lt_iff_lt_mul hn).2 (by rwa [Nat.mul_comm]))
    rwa [Nat.div_add_mod' k n] at this
  · rw [List.getElem?_eq_none (by omega), List.getElem?_eq_none (by omega)]

/-- Two nested loops (outer `a < A`, inner `b < B`) writing pairwise different positions `idx a b`. -/
theorem forN_scatter2 {A B : Nat} {body : Nat → Nat → List α → C (List α)} {a : List α}
    (idx : Nat → Nat → Nat) (g : Nat → Nat → α)
    (hin : ∀ i < A, ∀ j < B, idx i j < a.length)
    (hinj : ∀ i < A, ∀ j < B, ∀ i' < A, ∀ j' < B, idx i j = idx i' j' → i = i' ∧ j = j')
    (hb : ∀ i < A, ∀ j < B, ∀ b : List α, b.length = a.length → body i j b = wr b (idx i j) (g i j)) :
    ∃ b, forN A (fun i => forN B (body i)) a = .ok b ∧ b.length = a.length ∧
      (∀ i < A, ∀ j < B, b[idx i j]? = some (g i j)) ∧
      ∀ k, (∀ i < A, ∀ j < B, idx i j ≠ k) → b[k]? = a[k]? := by
  obtain ⟨b, h1, h2⟩ := forN_spec
    (I := fun i (b : List α) => b.length = a.length ∧ (∀ i' < i, ∀ j < B, b[idx i' j]? = some (g i' j)) ∧
      ∀ k, (∀ i' < i, ∀ j < B, idx i' j ≠ k) → b[k]? = a[k]?)
    (n := A) (body := fun i => forN B (body i)) (s := a) ⟨rfl, by simp, by simp⟩
    (by
      rintro i hi b ⟨hl, hw, hu⟩
      obtain ⟨b', e1, e2, e3, e4⟩ := forN_scatter (n := B) (body := body i) (a := b) (idx i) (g i)
        (by intro j hj; rw [hl]; exact hin i hi j hj)
        (by intro j hj j' hj' e; exact (hinj i hi j hj i hi j' hj' e).2)
        (by intro j hj c hc _ _; exact hb i hi j hj c (hc.trans hl))
      refine ⟨b', e1, e2.trans hl, ?_, ?_⟩
      · intro i' hi' j hj
        by_cases h : i' = i
        · subst h; exact e3 j hj
        · rw [e4 (idx i' j) (fun j' hj' e => h (hinj i hi j' hj' i' (by omega) j hj e).1.symm)]
          exact hw i' (by omega) j hj
      · intro k hk
        rw [e4 k (fun j hj => hk i (by omega) j hj)]
        exact hu k (fun i' hi' j hj => hk i' (by omega) j hj))
  exact ⟨b, h1, h2⟩

/-- Nested loops (columns outside) filling an `n × m` column-major buffer. -/
theorem forN_fill_cm {n m : Nat} {body : Nat → Nat → List α → C (List α)} {a : List α} (g : Nat → Nat → α)
    (hlen : a.length = n * m)
    (hb : ∀ j < m, ∀ i < n, ∀ b : List α, b.length = n * m → body j i b = wr b (j * n + i) (g i j)) :
    forN m (fun j => forN n (body j)) a = .ok (cm n m g) := by
  obtain ⟨b, h1, hl, hw, _⟩ := forN_scatter2 (A := m) (B := n) (body := body) (a := a)
    (fun j i => j * n + i) (fun j i => g i j)
    (by intro j hj i hi; rw [hlen]; exact cm_idx_lt hi hj)
    (by
      intro j hj i hi j' hj' i' hi' e
      have e1 := congrArg (· % n) e
      have e2 := congrArg (· / n) e
      simp only [cm_mod hi, cm_mod hi', cm_div hi, cm_div hi'] at e1 e2
      exact ⟨e2, e1⟩)
    (by intro j hj i hi b hb'; exact hb j hj i hi b (hb'.trans hlen))
  rw [h1]; congr 1
  apply ext_cm (hl.trans hlen) (by simp)
  intro i hi j hj
  rw [hw j hj i hi, cm_getElem? g hi hj]

/-- Nested loops (rows outside) filling an `n × m` column-major buffer. -/
theorem forN_fill_cm' {n m : Nat} {body : Nat → Nat → List α → C (List α)} {a : List α} (g : Nat → Nat → α)
    (hlen : a.length = n * m)
    (hb : ∀ i < n, ∀ j < m, ∀ b : List α, b.length = n * m → body i j b = wr b (j * n + i) (g i j)) :
    forN n (fun i => forN m (body i)) a = .ok (cm n m g) := by
  obtain ⟨b, h1, hl, hw, _⟩ := forN_scatter2 (A := n) (B := m) (body := body) (a := a)
    (fun i j => j * n + i) g
    (by intro i hi j hj; rw [hlen]; exact cm_idx_lt hi hj)
    (by
      intro i hi j hj i' hi' j' hj' e
      have e1 := congrArg (· % n) e
      have e2 := congrArg (· / n) e
      simp only [cm_mod hi, cm_mod hi', cm_div hi, cm_div hi'] at e1 e2
      exact ⟨e1, e2⟩)
    (by intro i hi j hj b hb'; exact hb i hi j hj b (hb'.trans hlen))
  rw [h1]; congr 1
  apply ext_cm (hl.trans hlen) (by simp)
  intro i hi j hj
  rw [hw i hi j hj, cm_getElem? g hi hj]

end C3

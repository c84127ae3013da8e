/-
The circular list of the limited memory BFGS optimizer holds the most recent pairs, newest first.
-/
import Verif.Opt.LbfgsModel
import Verif.Opt.BfgsLemmas

set_option linter.unusedSectionVars false

namespace C3.Opt
open Finset

variable {K : Type} [Field K] [LinearOrder K] [IsStrictOrderedRing K]

/-- A stored pair: iteration, step, change of gradient, their inner product. -/
structure Entry (K : Type) where
  iter : Nat
  s : List K
  y : List K
  rho : K

/-- The payload of a node. -/
def pay (n : Node K) : Entry K := ⟨n.iter, n.s, n.y, n.rhoinv⟩

/-- The nodes at the addresses `id 0`, `id 1`, ... (newest first) are linked as the code expects. -/
structure Rep (l : LL K) (id : Nat → Nat) (nd : Nat → Node K) : Prop where
  le : l.size ≤ l.m
  heapLen : l.heap.length = l.size
  heap : ∀ k < l.size, l.heap[id k]? = some (nd k)
  inj : ∀ j < l.size, ∀ k < l.size, id j = id k → j = k
  head : 0 < l.size → l.head = some (id 0)
  next : ∀ k, k + 1 < l.size → (nd k).next = some (id (k + 1))
  prev : ∀ k, k + 1 < l.size → (nd (k + 1)).prev = some (id k)
  opened : l.size < l.m → 0 < l.size → (nd (l.size - 1)).next = none
  closed : l.size = l.m → (nd 0).prev = some (id (l.size - 1))
  slen : ∀ k < l.size, (nd k).s.length = l.d
  ylen : ∀ k < l.size, (nd k).y.length = l.d

theorem Rep.alloc (m d : Nat) (hm : 0 < m) (id : Nat → Nat) (nd : Nat → Node K) : Rep (LL.alloc m d) id nd := by
  constructor <;> simp [LL.alloc] <;> omega

theorem rd_some {α : Type} {h : List α} {a : Nat} {n : α} (e : h[a]? = some n) : rd h a = .ok n := rd_of_getElem? e

theorem lt_of_some {α : Type} {h : List α} {a : Nat} {n : α} (e : h[a]? = some n) : a < h.length := by
  by_contra hc
  rw [List.getElem?_eq_none (by omega)] at e
  simp at e

theorem walkEnd_ok {heap : List (Node K)} {size : Nat} {id : Nat → Nat} {nx : Nat → Option Nat}
    (hh : ∀ k < size, ∃ n, heap[id k]? = some n ∧ n.next = nx k) (hn : ∀ k, k + 1 < size → nx k = some (id (k + 1)))
    (hl : nx (size - 1) = none) : ∀ fuel j, j < size → size ≤ j + fuel → walkEnd heap fuel (id j) = .ok (id (size - 1)) := by
  intro fuel
  induction fuel with
  | zero => intro j h1 h2; omega
  | succ fuel ih =>
    intro j h1 h2
    obtain ⟨n, e1, e2⟩ := hh j h1
    rw [walkEnd, rd_some e1, bind_ok, e2]
    by_cases hj : j + 1 < size
    · rw [hn j hj]
      exact ih (j + 1) hj (by omega)
    · have : j = size - 1 := by omega
      rw [this, hl]; rfl

/-- The content of the newest entry. -/
def newEntry (d iter : Nat) (xn xc gn gc : List K) : Entry K :=
  let s := (List.range d).map fun i => xn.getD i 0 + -1 * xc.getD i 0
  let y := (List.range d).map fun i => gn.getD i 0 + -1 * gc.getD i 0
  ⟨iter, s, y, dot d s y⟩

theorem insert_rep {l : LL K} {id : Nat → Nat} {nd : Nat → Node K} (h : Rep l id nd) (hm : 2 ≤ l.m) (iter : Nat) {xn xc gn gc : List K}
    (h1 : xn.length = l.d) (h2 : xc.length = l.d) (h3 : gn.length = l.d) (h4 : gc.length = l.d) :
    ∃ l' id' nd', insert l iter xn xc gn gc = .ok l' ∧ Rep l' id' nd' ∧ l'.m = l.m ∧ l'.d = l.d ∧ l'.size = min (l.size + 1) l.m ∧
      pay (nd' 0) = newEntry l.d iter xn xc gn gc ∧ ∀ k, 1 ≤ k → k < l'.size → pay (nd' k) = pay (nd (k - 1)) := by
  have hsl : ((List.range l.d).map fun i => xn.getD i 0 + -1 * xc.getD i 0).length = l.d := by simp
  have hyl : ((List.range l.d).map fun i => gn.getD i 0 + -1 * gc.getD i 0).length = l.d := by simp
  rw [insert]
  by_cases hf : l.size ≥ l.m
  · -- the list is full: the oldest node is used again
    have hsz : l.size = l.m := le_antisymm h.le hf
    have e0 := h.heap 0 (by omega)
    have el := h.heap (l.size - 1) (by omega)
    have hp : pick l = .ok ⟨id (l.size - 1), nd (l.size - 1), l.heap⟩ := by
      rw [pick, if_pos hf, h.head (by omega), deref, rd_some e0, bind_ok, h.closed hsz, addr, pure_eq_ok, bind_ok, rd_some el, bind_ok]; rfl
    rw [hp, bind_ok]
    dsimp only
    rw [dcopy_ok h1 (h.slen _ (by omega)), bind_ok, daxpy_ok _ h2 h1, bind_ok, dcopy_ok h3 (h.ylen _ (by omega)), bind_ok,
      daxpy_ok _ h4 h3, bind_ok, dot_ok hsl hyl, bind_ok, link, if_pos hf, wr_ok _ (lt_of_some el), bind_ok]
    refine ⟨_, fun k => if k = 0 then id (l.size - 1) else id (k - 1),
      fun k => if k = 0 then ⟨iter, ((List.range l.d).map fun i => xn.getD i 0 + -1 * xc.getD i 0), ((List.range l.d).map fun i => gn.getD i 0 + -1 * gc.getD i 0), dot l.d ((List.range l.d).map fun i => xn.getD i 0 + -1 * xc.getD i 0) ((List.range l.d).map fun i => gn.getD i 0 + -1 * gc.getD i 0), l.head, (nd (l.size - 1)).prev⟩ else nd (k - 1), rfl, ?_, rfl, rfl, ?_, rfl, ?_⟩
    · have hne : ∀ k, 1 ≤ k → k < l.size → id (l.size - 1) ≠ id (k - 1) := fun k hk1 hk2 e => by
        have := h.inj _ (by omega) _ (by omega) e
        omega
      constructor
      · exact h.le
      · simp [h.heapLen]
      · intro k hk
        dsimp only
        by_cases hk0 : k = 0
        · rw [if_pos hk0, if_pos hk0, List.getElem?_set_self (lt_of_some el)]
        · rw [if_neg hk0, if_neg hk0, List.getElem?_set_ne (hne k (by omega) hk)]
          exact h.heap _ (by simp only at hk; omega)
      · intro j hj k hk e
        simp only at hj hk e
        by_cases hj0 : j = 0 <;> by_cases hk0 : k = 0
        · omega
        · rw [if_pos hj0, if_neg hk0] at e
          have := h.inj _ (by omega) _ (by omega) e
          omega
        · rw [if_neg hj0, if_pos hk0] at e
          have := h.inj _ (by omega) _ (by omega) e
          omega
        · rw [if_neg hj0, if_neg hk0] at e
          have := h.inj _ (by omega) _ (by omega) e
          omega
      · intro _; rfl
      · intro k hk
        simp only at hk
        by_cases hk0 : k = 0
        · rw [if_pos hk0, hk0, if_neg (by omega)]
          exact h.head (by omega)
        · rw [if_neg hk0, if_neg (by omega)]
          have := h.next (k - 1) (by omega)
          rw [this]; congr 2; omega
      · intro k hk
        simp only at hk
        rw [if_neg (by omega), Nat.add_sub_cancel]
        by_cases hk0 : k = 0
        · rw [if_pos hk0, hk0]; exact h.closed hsz
        · rw [if_neg hk0]
          have := h.prev (k - 1) (by omega)
          rwa [show k - 1 + 1 = k by omega] at this
      · intro hlt; simp only at hlt; omega
      · intro _
        simp only [if_true]
        rw [if_neg (by omega)]
        have := h.prev (l.size - 1 - 1) (by omega)
        rwa [show l.size - 1 - 1 + 1 = l.size - 1 by omega] at this
      · intro k hk
        dsimp only
        split
        · exact hsl
        · exact h.slen _ (by simp only at hk; omega)
      · intro k hk
        dsimp only
        split
        · exact hyl
        · exact h.ylen _ (by simp only at hk; omega)
    · simp only; omega
    · intro k hk1 hk2
      dsimp only
      rw [if_neg (by omega)]
  · rw [not_le] at hf
    have hp : pick l = .ok ⟨l.heap.length, ⟨0, List.replicate l.d 0, List.replicate l.d 0, 0, none, none⟩,
        l.heap ++ [(⟨0, List.replicate l.d 0, List.replicate l.d 0, 0, none, none⟩ : Node K)]⟩ := by
      rw [pick, if_neg (by omega)]; rfl
    rw [hp, bind_ok]
    dsimp only
    rw [dcopy_ok h1 (by simp), bind_ok, daxpy_ok _ h2 h1, bind_ok, dcopy_ok h3 (by simp), bind_ok,
      daxpy_ok _ h4 h3, bind_ok, dot_ok hsl hyl, bind_ok, link, if_neg (by omega)]
    by_cases hpos : l.size > 0
    · rw [if_pos hpos, h.head hpos, addr, pure_eq_ok, bind_ok]
      have e0 := h.heap 0 hpos
      have hlt0 := lt_of_some e0
      have hlt : ∀ k < l.size, id k < l.heap.length := fun k hk => lt_of_some (h.heap k hk)
      have g0 : (l.heap ++ [(⟨0, List.replicate l.d 0, List.replicate l.d 0, 0, none, none⟩ : Node K)])[id 0]? = some (nd 0) := by
        rw [List.getElem?_append_left hlt0]; exact e0
      rw [rd_some g0, bind_ok, wr_ok _ (lt_of_some g0), bind_ok]
      dsimp only
      rw [wr_ok _ (by simp), bind_ok]
      -- the heap after linking, with `pv` the new node's pointer to the previous one
      have key : ∀ (new : Node K) k, k < l.size →
          (((l.heap ++ [(⟨0, List.replicate l.d 0, List.replicate l.d 0, 0, none, none⟩ : Node K)]).set (id 0) { nd 0 with prev := some l.heap.length }).set
            l.heap.length new)[id k]? = some (if k = 0 then { nd 0 with prev := some l.heap.length } else nd k) := by
        intro new k hk
        rw [List.getElem?_set_ne (by have := hlt k hk; omega)]
        by_cases hk0 : k = 0
        · rw [if_pos hk0, hk0, List.getElem?_set_self (by simp; omega)]
        · rw [if_neg hk0, List.getElem?_set_ne (fun e => by have := h.inj _ hpos _ hk e; omega), List.getElem?_append_left (hlt k hk)]
          exact h.heap k hk
      -- all of the representation except the pointer back from the newest node
      have rest : ∀ (pv : Option Nat), (l.size + 1 = l.m → pv = some (id (l.size - 1))) →
          ∀ hp : List (Node K), (hp = (((l.heap ++ [(⟨0, List.replicate l.d 0, List.replicate l.d 0, 0, none, none⟩ : Node K)]).set (id 0)
            { nd 0 with prev := some l.heap.length }).set l.heap.length
              ⟨iter, (List.range l.d).map fun i => xn.getD i 0 + -1 * xc.getD i 0, (List.range l.d).map fun i => gn.getD i 0 + -1 * gc.getD i 0,
                dot l.d ((List.range l.d).map fun i => xn.getD i 0 + -1 * xc.getD i 0) ((List.range l.d).map fun i => gn.getD i 0 + -1 * gc.getD i 0),
                some (id 0), pv⟩)) →
          Rep ⟨l.m, l.d, l.size + 1, some l.heap.length, 0, l.cstep, hp⟩ (fun k => if k = 0 then l.heap.length else id (k - 1))
            (fun k => if k = 0 then
              ⟨iter, (List.range l.d).map fun i => xn.getD i 0 + -1 * xc.getD i 0, (List.range l.d).map fun i => gn.getD i 0 + -1 * gc.getD i 0,
                dot l.d ((List.range l.d).map fun i => xn.getD i 0 + -1 * xc.getD i 0) ((List.range l.d).map fun i => gn.getD i 0 + -1 * gc.getD i 0),
                some (id 0), pv⟩
              else if k - 1 = 0 then { nd 0 with prev := some l.heap.length } else nd (k - 1)) := by
        intro pv hpv hp ehp
        constructor
        · simp only; omega
        · rw [ehp]; simp [h.heapLen]
        · intro k hk
          simp only at hk ⊢
          rw [ehp]
          by_cases hk0 : k = 0
          · rw [if_pos hk0, if_pos hk0, List.getElem?_set_self (by simp)]
          · rw [if_neg hk0, if_neg hk0]
            exact key _ (k - 1) (by omega)
        · intro j hj k hk e
          simp only at hj hk e
          by_cases hj0 : j = 0 <;> by_cases hk0 : k = 0
          · omega
          · rw [if_pos hj0, if_neg hk0] at e
            have := hlt (k - 1) (by omega)
            omega
          · rw [if_neg hj0, if_pos hk0] at e
            have := hlt (j - 1) (by omega)
            omega
          · rw [if_neg hj0, if_neg hk0] at e
            have := h.inj _ (by omega) _ (by omega) e
            omega
        · intro _; rfl
        · intro k hk
          simp only at hk
          by_cases hk0 : k = 0
          · rw [if_pos hk0, hk0, if_neg (by omega)]
          · rw [if_neg hk0, if_neg (show ¬ k + 1 = 0 by omega)]
            have := h.next (k - 1) (by omega)
            rw [show k - 1 + 1 = k by omega] at this
            split
            · next hk1 => rw [hk1] at this; simpa using this
            · simpa using this
        · intro k hk
          simp only at hk
          rw [if_neg (show ¬ k + 1 = 0 by omega), Nat.add_sub_cancel]
          by_cases hk0 : k = 0
          · rw [if_pos hk0, if_pos hk0]
          · rw [if_neg hk0, if_neg hk0]
            have := h.prev (k - 1) (by omega)
            rwa [show k - 1 + 1 = k by omega] at this
        · intro hlt' _
          simp only at hlt' ⊢
          have := h.opened hf hpos
          rw [if_neg (by omega), Nat.add_sub_cancel]
          split
          · next e => rw [e] at this; exact this
          · exact this
        · intro e
          simp only at e ⊢
          rw [if_pos trivial, if_neg (by omega)]
          exact hpv e
        · intro k hk
          dsimp only
          split
          · exact hsl
          · split
            · exact h.slen _ hpos
            · exact h.slen _ (by simp only at hk; omega)
        · intro k hk
          dsimp only
          split
          · exact hyl
          · split
            · exact h.ylen _ hpos
            · exact h.ylen _ (by simp only at hk; omega)
      by_cases hfull : l.size + 1 = l.m
      · rw [if_pos hfull, walkEnd_ok (size := l.size) (id := id) (nx := fun k => (nd k).next) ?_ h.next (h.opened hf hpos) _ 0 hpos
          (by simp [h.heapLen]; omega), bind_ok, wr_ok _ (by simp), bind_ok]
        · refine ⟨_, _, _, rfl, rest (some (id (l.size - 1))) (fun _ => rfl) _ (by rw [List.set_set]), rfl, rfl, by simp only; omega, rfl, ?_⟩
          intro k hk1 hk2
          rw [if_neg (by omega)]
          split
          · next e => rw [e]; rfl
          · rfl
        · intro k hk
          refine ⟨_, key _ k hk, ?_⟩
          split
          · next e => rw [e]
          · rfl
      · rw [if_neg hfull]
        refine ⟨_, _, _, rfl, rest none (fun e => absurd e hfull) _ rfl, rfl, rfl, by simp only; omega, rfl, ?_⟩
        intro k hk1 hk2
        rw [if_neg (by omega)]
        split
        · next e => rw [e]; rfl
        · rfl
    · rw [if_neg hpos, wr_ok _ (by simp), bind_ok]
      have hs0 : l.size = 0 := by omega
      have hh0 : l.heap = [] := List.length_eq_zero_iff.mp (by rw [h.heapLen, hs0])
      refine ⟨_, fun _ => 0, fun _ => ⟨iter, ((List.range l.d).map fun i => xn.getD i 0 + -1 * xc.getD i 0), ((List.range l.d).map fun i => gn.getD i 0 + -1 * gc.getD i 0), dot l.d ((List.range l.d).map fun i => xn.getD i 0 + -1 * xc.getD i 0) ((List.range l.d).map fun i => gn.getD i 0 + -1 * gc.getD i 0), none, none⟩, rfl, ?_, rfl, rfl, by simp only; omega, rfl, ?_⟩
      · constructor
        · simp only; omega
        · simp [hh0]
        · intro k hk; simp [hh0]
        · intro j hj k hk _; simp only at hj hk; omega
        · intro _; simp [hh0]
        · intro k hk; simp only at hk; omega
        · intro k hk; simp only at hk; omega
        · intro _ _; rfl
        · intro e; simp only at e; omega
        · intro k _; exact hsl
        · intro k _; exact hyl
      · intro k hk1 hk2; simp only at hk2; omega

/-- Specification: the list holds the entries `es`, newest first. -/
def Holds (l : LL K) (es : List (Entry K)) : Prop :=
  ∃ id nd, Rep l id nd ∧ es = (List.range l.size).map fun k => pay (nd k)

/-- C84: inserting a pair into the memory of the limited memory optimizer keeps exactly the `m` most recent pairs, newest first. -/
theorem insert_holds {l : LL K} {es : List (Entry K)} (h : Holds l es) (hm : 2 ≤ l.m) (iter : Nat) {xn xc gn gc : List K}
    (h1 : xn.length = l.d) (h2 : xc.length = l.d) (h3 : gn.length = l.d) (h4 : gc.length = l.d) :
    ∃ l', insert l iter xn xc gn gc = .ok l' ∧ l'.m = l.m ∧ l'.d = l.d ∧ Holds l' ((newEntry l.d iter xn xc gn gc :: es).take l.m) := by
  obtain ⟨id, nd, hr, rfl⟩ := h
  obtain ⟨l', id', nd', e1, e2, e3, e4, e5, e6, e7⟩ := insert_rep hr hm iter h1 h2 h3 h4
  refine ⟨l', e1, e3, e4, id', nd', e2, ?_⟩
  apply List.ext_getElem?
  intro k
  by_cases hk : k < l'.size
  · rw [List.getElem?_take_of_lt (by omega)]
    rw [List.getElem?_map, List.getElem?_range hk, Option.map_some]
    by_cases hk0 : k = 0
    · rw [hk0, List.getElem?_cons_zero, e6]
    · obtain ⟨j, rfl⟩ : ∃ j, k = j + 1 := ⟨k - 1, by omega⟩
      rw [List.getElem?_cons_succ, List.getElem?_map, List.getElem?_range (by omega), Option.map_some, e7 _ (by omega) hk, Nat.add_sub_cancel]
  · rw [List.getElem?_eq_none (by simp; omega), List.getElem?_eq_none (by simp; omega)]

/-- The hypotheses of `insert_holds`: three insertions into a memory of two pairs; the first pair is dropped. -/
example : Holds (LL.alloc 2 1 : LL ℚ) [] ∧ 2 ≤ (LL.alloc 2 1 : LL ℚ).m ∧
    (do
      let l ← insert (LL.alloc 2 1 : LL ℚ) 0 [1] [0] [2] [0]
      let l ← insert l 1 [2] [1] [5] [2]
      let l ← insert l 2 [4] [2] [6] [5]
      let a ← lstep l
      let b ← lstep a.1
      pure ((a.2.iter, a.2.rhoinv), (b.2.iter, b.2.rhoinv)) : C ((Nat × ℚ) × (Nat × ℚ))) = .ok ((2, 2), (1, 3)) :=
  ⟨⟨fun k => k, fun _ => ⟨0, [], [], 0, none, none⟩, Rep.alloc 2 1 (by omega) _ _, rfl⟩, le_rfl, by decide +kernel⟩

/-- C84: storing a single pair (`nvectors_store = 1`) is not supported: the second insertion dereferences NULL. -/
theorem insert_one_counterexample :
    (insert (K := ℚ) (LL.alloc 1 1) 0 [1] [0] [2] [0] >>= fun l => insert l 1 [2] [1] [4] [2]) = .error .null := rfl

/-- C84: neither is storing none: the first insertion dereferences NULL. -/
theorem insert_zero_counterexample (d iter : Nat) (xn xc gn gc : List K) : insert (LL.alloc 0 d : LL K) iter xn xc gn gc = .error .null := rfl

end C3.Opt

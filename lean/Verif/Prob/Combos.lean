/-
Enumeration of index vectors, and the inclusion-exclusion that defines the interactions.
-/
import Verif.Prob.Model
import Verif.Core.Buf
import Mathlib.Data.Finset.Powerset
import Mathlib.Algebra.BigOperators.Intervals
import Mathlib.Data.Finset.Sort

set_option linter.unusedSectionVars false

namespace C3.Prob
open Finset
variable {K : Type} [Field K]

/-- The increasing lists of length `k` with entries in `[s, n)`. -/
def combos (n : Nat) : Nat → Nat → List (List Nat)
  | 0, _ => [[]]
  | k + 1, s => if s < n then (combos n k (s + 1)).map (s :: ·) ++ combos n (k + 1) (s + 1) else []
termination_by _ s => n - s

theorem pred64_pos {k : Nat} (h : 0 < k) : pred64 k = k - 1 := by rw [pred64, if_neg (by omega)]
theorem pred64_zero : pred64 0 = 2 ^ 64 - 1 := rfl

theorem nck_none {n : Nat} : ∀ {d s : Nat}, d = n - s → ∀ {k : Nat} (_ : n - s < k) (prev : List Nat) (list : List (List Nat)), nck n k s prev list = list := by
  intro d
  induction d with
  | zero =>
    intro s hd k hk prev list
    rw [nck, if_neg (by omega)]
  | succ d ih =>
    intro s hd k hk prev list
    rw [nck, if_pos (by omega), if_neg (by omega), pred64_pos (by omega), ih (s := s + 1) (k := k) (by omega) (by omega), ih (s := s + 1) (k := k - 1) (by omega) (by omega)]

theorem nck_zero {n : Nat} (hn : n < 2 ^ 64) : ∀ {d s : Nat}, d = n - s → ∀ (prev : List Nat) (list : List (List Nat)), nck n 0 s prev list = list := by
  intro d
  induction d with
  | zero =>
    intro s hd prev list
    rw [nck, if_neg (by omega)]
  | succ d ih =>
    intro s hd prev list
    rw [nck, if_pos (by omega), if_neg (by omega), pred64_zero, nck_none (k := 2 ^ 64 - 1) rfl (by omega), ih (s := s + 1) (by omega)]

theorem nck_value {n : Nat} : ∀ {d s : Nat}, d = n - s → ∀ (k : Nat) (prev : List Nat) (list : List (List Nat)),
    nck n (k + 1) s prev list = list ++ (combos n (k + 1) s).map (prev ++ ·) := by
  intro d
  induction d with
  | zero =>
    intro s hd k prev list
    rw [nck, if_neg (by omega), combos, if_neg (by omega)]
    simp
  | succ d ih =>
    intro s hd k prev list
    have hs : s < n := by omega
    rw [nck, if_pos hs, combos, if_pos hs]
    rcases k with _ | k
    · rw [if_pos rfl, ih (s := s + 1) (by omega), combos]
      simp
    · rw [if_neg (by omega), pred64_pos (by omega), Nat.add_sub_cancel, ih (s := s + 1) (by omega), ih (s := s + 1) (by omega)]
      simp [Function.comp_def]

theorem combos_mem {n : Nat} : ∀ {d s : Nat}, d = n - s → ∀ {k : Nat} {l : List Nat}, l ∈ combos n k s → l.Pairwise (· < ·) ∧ l.length = k ∧ ∀ x ∈ l, s ≤ x ∧ x < n := by
  intro d
  induction d with
  | zero =>
    intro s hd k l h
    rcases k with _ | k
    · rw [combos] at h; simp at h; subst h; simp
    · rw [combos, if_neg (by omega)] at h; cases h
  | succ d ih =>
    intro s hd k l h
    rcases k with _ | k
    · rw [combos] at h; simp at h; subst h; simp
    · rw [combos, if_pos (by omega), List.mem_append] at h
      rcases h with h | h
      · obtain ⟨l', h', rfl⟩ := List.mem_map.1 h
        obtain ⟨h1, h2, h3⟩ := ih (s := s + 1) (by omega) h'
        refine ⟨List.pairwise_cons.2 ⟨fun x hx => by have := h3 x hx; omega, h1⟩, by simp [h2], fun x hx => ?_⟩
        rcases List.mem_cons.1 hx with rfl | hx
        · omega
        · have := h3 x hx; omega
      · obtain ⟨h1, h2, h3⟩ := ih (s := s + 1) (by omega) h
        exact ⟨h1, h2, fun x hx => by have := h3 x hx; omega⟩

/-- Every `k`-subset of `[s, n)` is enumerated once. -/
theorem combos_sum {n : Nat} (G : Finset Nat → K) : ∀ {d s : Nat}, d = n - s → ∀ (k : Nat),
    ((combos n k s).map fun l => G l.toFinset).sum = ∑ w ∈ powersetCard k (Ico s n), G w := by
  intro d
  induction d generalizing G with
  | zero =>
    intro s hd k
    rcases k with _ | k
    · rw [combos]; simp
    · rw [combos, if_neg (by omega), Ico_eq_empty (by omega)]
      rw [powersetCard_eq_empty.2 (by simp)]
      simp
  | succ d ih =>
    intro s hd k
    rcases k with _ | k
    · rw [combos]; simp
    · rw [combos, if_pos (by omega), List.map_append, List.sum_append, ih G (s := s + 1) (by omega), List.map_map]
      have hI : Ico s n = insert s (Ico (s + 1) n) := (insert_Ico_add_one_left_eq_Ico (by omega)).symm
      have hs : s ∉ Ico (s + 1) n := by simp
      rw [hI, powersetCard_succ_insert hs, sum_union, add_comm]
      · congr 1
        rw [sum_image]
        · have := ih (fun w => G (insert s w)) (s := s + 1) (by omega) k
          rw [← this]
          congr 1
          refine List.map_congr_left fun l _ => ?_
          simp
        · intro a ha b hb hab
          have ha' : s ∉ a := fun h => hs ((mem_powersetCard.1 ha).1 h)
          have hb' : s ∉ b := fun h => hs ((mem_powersetCard.1 hb).1 h)
          rw [← erase_insert ha', ← erase_insert hb']
          exact congrArg (·.erase s) hab
      · rw [disjoint_left]
        intro a ha hb
        obtain ⟨b, -, rfl⟩ := mem_image.1 hb
        exact hs ((mem_powersetCard.1 ha).1 (mem_insert_self s b))

/-! ### Inclusion-exclusion -/

/-- What is left of `v u` after taking away the contributions of all proper subsets. -/
noncomputable def inter (v : Finset Nat → K) (u : Finset Nat) : K :=
  if u = ∅ then 0 else v u - ∑ w ∈ u.ssubsets.attach, inter v w.1
termination_by u.card
decreasing_by exact card_lt_card (mem_ssubsets.1 w.2)

theorem inter_empty (v : Finset Nat → K) : inter v ∅ = 0 := by rw [inter, if_pos rfl]

theorem inter_eq (v : Finset Nat → K) {u : Finset Nat} (hu : u ≠ ∅) : inter v u = v u - ∑ w ∈ u.ssubsets, inter v w := by
  rw [inter, if_neg hu, sum_attach u.ssubsets (fun w => inter v w)]

/-- The contributions of all subsets add up. -/
theorem sum_inter (v : Finset Nat → K) {u : Finset Nat} (hu : u ≠ ∅) : ∑ w ∈ u.powerset, inter v w = v u := by
  rw [← insert_erase (mem_powerset_self u), sum_insert (notMem_erase _ _)]
  have : u.powerset.erase u = u.ssubsets := rfl
  rw [this, inter_eq v hu]
  ring

/-- This determines them. -/
theorem inter_unique {v V : Finset Nat → K} {D : Finset Nat} (h0 : V ∅ = 0) (h : ∀ u ⊆ D, u ≠ ∅ → ∑ w ∈ u.powerset, V w = v u) : ∀ u ⊆ D, V u = inter v u := by
  intro u
  induction u using Finset.strongInduction with
  | _ u ih =>
    intro hu
    by_cases hu0 : u = ∅
    · rw [hu0, h0, inter_empty]
    · have h1 := h u hu hu0
      have h2 := sum_inter v hu0
      rw [← insert_erase (mem_powerset_self u), sum_insert (notMem_erase _ _)] at h1 h2
      have h3 : ∑ w ∈ u.powerset.erase u, V w = ∑ w ∈ u.powerset.erase u, inter v w := sum_congr rfl fun w hw => by
        have : w ⊂ u := mem_ssubsets.1 hw
        exact ih w this (this.1.trans hu)
      rw [h3, ← h2] at h1
      exact add_right_cancel h1

/-! ### The amount to subtract -/

theorem mapM_rd {L : List Nat} : ∀ {l : List Nat}, (∀ i ∈ l, i < L.length) → l.mapM (rd L) = .ok (l.map fun i => L.getD i 0)
  | [], _ => rfl
  | i :: l, h => by
    rw [List.mapM_cons, rd_ok (h i (by simp)), bind_ok, mapM_rd fun j hj => h j (by simp [hj]), bind_ok, pure_eq_ok, List.map_cons]
    simp [h i (by simp)]

theorem subLoop_ok {head : List (SI K)} {L : List Nat} {G : List Nat → K} : ∀ {ls : List (List Nat)} {acc : K},
    (∀ l ∈ ls, (∀ i ∈ l, i < L.length) ∧ getInteraction head (l.map fun i => L.getD i 0) = .ok (G l)) → subLoop head L ls acc = .ok (acc + (ls.map G).sum)
  | [], acc, _ => by rw [subLoop]; simp
  | l :: ls, acc, h => by
    obtain ⟨h1, h2⟩ := h l (by simp)
    rw [subLoop, mapM_rd h1, bind_ok, h2, bind_ok, subLoop_ok fun l' hl' => h l' (by simp [hl'])]
    simp [add_assoc]

theorem getD_inj {L : List Nat} (hL : L.Pairwise (· < ·)) {i j : Nat} (hi : i < L.length) (hj : j < L.length) (h : L.getD i 0 = L.getD j 0) : i = j := by
  rw [List.getD_eq_getElem?_getD, List.getD_eq_getElem?_getD, List.getElem?_eq_getElem hi, List.getElem?_eq_getElem hj] at h
  simp only [Option.getD_some] at h
  exact (List.Nodup.getElem_inj_iff (hL.imp fun h => Nat.ne_of_lt h)).1 h

theorem sublist_of_idx {L l : List Nat} (hl : l.Pairwise (· < ·)) (hr : ∀ i ∈ l, i < L.length) : (l.map fun i => L.getD i 0).Sublist L := by
  have h1 : l.Sublist (List.range L.length) := by
    have hs : (List.range L.length).Pairwise (· < ·) := List.pairwise_lt_range
    exact List.sublist_of_subperm_of_pairwise (r := (· < ·)) ((List.subperm_of_subset (hl.imp fun h => Nat.ne_of_lt h)) fun i hi => List.mem_range.2 (hr i hi)) hl hs
  have h2 := h1.map fun i => L.getD i 0
  have h3 : (List.range L.length).map (fun i => L.getD i 0) = L := by
    apply List.ext_getElem
    · simp
    · intro i h1 h2; simp [h2]
  rwa [h3] at h2

/-- The sum over the proper subsets of a label. -/
theorem varSub_ok {head : List (SI K)} {L : List Nat} (hL : L.Pairwise (· < ·)) (h64 : L.length < 2 ^ 64) {v : Finset Nat → K}
    (h : ∀ S : List Nat, S.Sublist L → S ≠ [] → S ≠ L → getInteraction head S = .ok (inter v S.toFinset)) :
    forN L.length (fun jj acc => subLoop head L (nck L.length jj 0 [] []) acc) 0 = .ok (∑ w ∈ L.toFinset.ssubsets, inter v w) := by
  have hcard : L.toFinset.card = L.length := List.toFinset_card_of_nodup (hL.imp fun h => Nat.ne_of_lt h)
  obtain ⟨s, e, hs⟩ := forN_spec (n := L.length) (s := (0 : K)) (body := fun jj acc => subLoop head L (nck L.length jj 0 [] []) acc)
    (I := fun m acc => acc = ∑ jj ∈ range m, ∑ w ∈ powersetCard jj L.toFinset, inter v w) (by simp)
    (by
      rintro jj hjj acc rfl
      refine ⟨_, ?_, rfl⟩
      rcases jj with _ | k
      · rw [nck_zero h64 rfl, subLoop]
        simp [inter_empty]
      · rw [nck_value rfl, List.nil_append]
        simp only [List.nil_append, List.map_id']
        rw [subLoop_ok (G := fun l => inter v ((l.toFinset).image fun i => L.getD i 0)) fun l hl => ?_]
        · rw [sum_range_succ _ (k + 1), combos_sum (fun w => inter v (w.image fun i => L.getD i 0)) rfl]
          refine congrArg Except.ok (congrArg (fun t => _ + t) ?_)
          refine sum_nbij (fun w : Finset Nat => w.image fun i => L.getD i 0) ?_ ?_ ?_ ?_
          · intro w hw
            obtain ⟨h1, h2⟩ := mem_powersetCard.1 hw
            refine mem_powersetCard.2 ⟨fun x hx => ?_, ?_⟩
            · obtain ⟨i, hi, rfl⟩ := mem_image.1 hx
              have hi := mem_Ico.1 (h1 hi)
              rw [List.mem_toFinset, List.getD_eq_getElem?_getD, List.getElem?_eq_getElem hi.2, Option.getD_some]
              exact List.getElem_mem _
            · rw [card_image_of_injOn, h2]
              intro a ha b hb hab
              exact getD_inj hL (mem_Ico.1 (h1 ha)).2 (mem_Ico.1 (h1 hb)).2 hab
          · intro a ha b hb hab
            have ha' := (mem_powersetCard.1 (mem_coe.1 ha)).1
            have hb' := (mem_powersetCard.1 (mem_coe.1 hb)).1
            have hab : a.image (fun i => L.getD i 0) = b.image (fun i => L.getD i 0) := hab
            ext i
            constructor
            · intro hi
              have : L.getD i 0 ∈ b.image (fun i => L.getD i 0) := hab ▸ mem_image_of_mem _ hi
              obtain ⟨j, hj, e⟩ := mem_image.1 this
              rw [← getD_inj hL (mem_Ico.1 (hb' hj)).2 (mem_Ico.1 (ha' hi)).2 e]
              exact hj
            · intro hi
              have : L.getD i 0 ∈ a.image (fun i => L.getD i 0) := hab ▸ mem_image_of_mem _ hi
              obtain ⟨j, hj, e⟩ := mem_image.1 this
              rw [← getD_inj hL (mem_Ico.1 (ha' hj)).2 (mem_Ico.1 (hb' hi)).2 e]
              exact hj
          · intro w hw
            obtain ⟨h1, h2⟩ := mem_powersetCard.1 (mem_coe.1 hw)
            have hIm : (Ico 0 L.length |>.filter fun i => L.getD i 0 ∈ w).image (fun i => L.getD i 0) = w := by
              ext x
              constructor
              · intro hx
                obtain ⟨i, hi, rfl⟩ := mem_image.1 hx
                exact (mem_filter.1 hi).2
              · intro hx
                obtain ⟨i, hi, rfl⟩ := List.getElem_of_mem (List.mem_toFinset.1 (h1 hx))
                refine mem_image.2 ⟨i, mem_filter.2 ⟨by simp [hi], by simpa [hi] using hx⟩, by simp [hi]⟩
            refine ⟨_, mem_coe.2 (mem_powersetCard.2 ⟨filter_subset _ _, ?_⟩), hIm⟩
            rw [← h2]
            conv_rhs => rw [← hIm]
            rw [card_image_of_injOn]
            intro a ha b hb hab
            exact getD_inj hL (mem_Ico.1 (mem_filter.1 (mem_coe.1 ha)).1).2 (mem_Ico.1 (mem_filter.1 (mem_coe.1 hb)).1).2 hab
          · intro w _; rfl
        · obtain ⟨h1, h2, h3⟩ := combos_mem rfl hl
          refine ⟨fun i hi => (h3 i hi).2, ?_⟩
          rw [h _ (sublist_of_idx h1 fun i hi => (h3 i hi).2) (by
            intro hc
            have := congrArg List.length hc
            simp [h2] at this) (by
            intro hc
            have := congrArg List.length hc
            rw [List.length_map, h2] at this
            omega)]
          congr 2
          ext x
          simp)
  rw [e, hs]
  congr 1
  have hss : L.toFinset.ssubsets = (range L.length).biUnion fun jj => powersetCard jj L.toFinset := by
    ext w
    rw [mem_ssubsets, mem_biUnion]
    constructor
    · intro hw
      exact ⟨w.card, mem_range.2 (hcard ▸ card_lt_card hw), mem_powersetCard.2 ⟨hw.1, rfl⟩⟩
    · rintro ⟨jj, hjj, hw⟩
      obtain ⟨h1, h2⟩ := mem_powersetCard.1 hw
      refine ssubset_of_subset_of_ne h1 ?_
      rintro rfl
      have := mem_range.1 hjj
      omega
  rw [hss, sum_biUnion]
  intro a _ b _ hab
  exact pairwise_disjoint_powersetCard _ hab

end C3.Prob

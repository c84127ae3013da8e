/-
C79: the calls made by `c3_sobol_sensitivity_apply_external`.
-/
import Verif.Prob.TreeProps

set_option linter.unusedSectionVars false

namespace C3.Prob
open Finset
variable {K : Type} [Field K]

mutual
/-- Positions of the nodes, in the order of the traversal. -/
def SI.paths : SI K → List (List Nat)
  | .null => []
  | .node _ _ _ _ ls => [] :: pathsL 0 ls
def pathsL : Nat → List (SI K) → List (List Nat)
  | _, [] => []
  | j, s :: ls => s.paths.map (j :: ·) ++ pathsL (j + 1) ls
end

/-- What is handed to the function at a node. -/
def Rec.entry (r : Rec K) : K × List Nat := match r.sub with | some s => (r.vari - s, r.label) | none => (r.vari, r.label)

/-- Reading a list of siblings starting at index `j`. -/
def viewFrom (j : Nat) (ls : List (SI K)) : List Nat → Option (Rec K)
  | [] => none
  | i :: is => if i < j then none else (ls[i - j]?).bind fun c => c.view is

theorem viewFrom_zero (ls : List (SI K)) (B : List Nat) : viewFrom 0 ls B = view ls B := by cases B <;> simp [viewFrom, view]

theorem viewFrom_cons_self (j : Nat) (s : SI K) (ls : List (SI K)) (B : List Nat) : viewFrom j (s :: ls) (j :: B) = s.view B := by simp [viewFrom]

theorem viewFrom_cons_ne {j i : Nat} (s : SI K) (ls : List (SI K)) (B : List Nat) (h : i ≠ j) : viewFrom j (s :: ls) (i :: B) = viewFrom (j + 1) ls (i :: B) := by
  rw [viewFrom, viewFrom]
  by_cases hi : i < j
  · rw [if_pos hi, if_pos (by omega)]
  · rw [if_neg hi, if_neg (by omega)]
    obtain ⟨d, rfl⟩ : ∃ d, i = j + 1 + d := ⟨i - j - 1, by omega⟩
    rw [show j + 1 + d - j = d + 1 by omega, show j + 1 + d - (j + 1) = d by omega, List.getElem?_cons_succ]

theorem view_node (v : Nat) (l : List Nat) (x : K) (s : Option K) (ls : List (SI K)) (i : Nat) (B : List Nat) : (SI.node v l x s ls).view (i :: B) = viewFrom 0 ls (i :: B) := by
  rw [SI.view, viewFrom_zero, view]

mutual
theorem paths_mem : ∀ (s : SI K) (B : List Nat), B ∈ s.paths ↔ (s.view B).isSome
  | .null, B => by simp [SI.paths, SI.view]
  | .node v l x s ls, [] => by simp [SI.paths, SI.view]
  | .node v l x s ls, i :: B => by
    rw [SI.paths, view_node, ← pathsL_mem 0 ls (i :: B)]
    simp
theorem pathsL_mem : ∀ (j : Nat) (ls : List (SI K)) (B : List Nat), B ∈ pathsL j ls ↔ (viewFrom j ls B).isSome
  | j, [], B => by cases B <;> simp [pathsL, viewFrom]
  | j, s :: ls, B => by
    rw [pathsL, List.mem_append, List.mem_map, pathsL_mem (j + 1) ls B]
    match B with
    | [] => simp [viewFrom]
    | i :: B =>
      by_cases h : i = j
      · subst h
        rw [viewFrom_cons_self, ← paths_mem s B]
        simp [viewFrom]
      · rw [viewFrom_cons_ne s ls B h]
        constructor
        · rintro (⟨a, -, ha⟩ | h')
          · cases ha; exact absurd rfl h
          · exact h'
        · exact Or.inr
end

theorem pathsL_head {j : Nat} {ls : List (SI K)} {B : List Nat} (h : B ∈ pathsL j ls) : ∃ i B', B = i :: B' ∧ j ≤ i := by
  rw [pathsL_mem] at h
  match B with
  | [] => simp [viewFrom] at h
  | i :: B =>
    refine ⟨i, B, rfl, ?_⟩
    by_contra hc
    rw [viewFrom, if_pos (by omega)] at h
    cases h

mutual
theorem paths_nodup : ∀ (s : SI K), s.paths.Nodup
  | .null => by simp [SI.paths]
  | .node v l x s ls => by
    rw [SI.paths, List.nodup_cons]
    refine ⟨fun h => ?_, pathsL_nodup 0 ls⟩
    obtain ⟨i, B, hB, -⟩ := pathsL_head h
    cases hB
theorem pathsL_nodup : ∀ (j : Nat) (ls : List (SI K)), (pathsL j ls).Nodup
  | j, [] => by simp [pathsL]
  | j, s :: ls => by
    rw [pathsL, List.nodup_append]
    refine ⟨(paths_nodup s).map fun a b h => by simpa using h, pathsL_nodup (j + 1) ls, ?_⟩
    intro a ha b hb
    obtain ⟨c, -, rfl⟩ := List.mem_map.1 ha
    obtain ⟨i, B, rfl, hi⟩ := pathsL_head hb
    intro hc
    cases hc
    omega
end

mutual
theorem calls_paths : ∀ (s : SI K), s.calls = s.paths.filterMap (fun B => (s.view B).map Rec.entry)
  | .null => by simp [SI.calls, SI.paths]
  | .node v l x s ls => by
    have h1 : callsL ls = (pathsL 0 ls).filterMap (fun B => ((SI.node v l x s ls).view B).map Rec.entry) := by
      rw [callsL_paths 0 ls]
      refine List.filterMap_congr fun B hB => ?_
      obtain ⟨i, B', rfl, -⟩ := pathsL_head hB
      rw [view_node]
    rw [SI.paths]
    cases s with
    | none => rw [SI.calls, h1, List.filterMap_cons_some (b := (x, l))]; rfl
    | some t => rw [SI.calls, h1, List.filterMap_cons_some (b := (x - t, l))]; rfl
theorem callsL_paths : ∀ (j : Nat) (ls : List (SI K)), callsL ls = (pathsL j ls).filterMap (fun B => (viewFrom j ls B).map Rec.entry)
  | j, [] => by simp [callsL, pathsL]
  | j, s :: ls => by
    rw [callsL, pathsL, List.filterMap_append, List.filterMap_map, calls_paths s, callsL_paths (j + 1) ls]
    congr 1
    · refine List.filterMap_congr fun B _ => ?_
      rw [Function.comp, viewFrom_cons_self]
    · refine List.filterMap_congr fun B hB => ?_
      obtain ⟨i, B', rfl, hi⟩ := pathsL_head hB
      rw [viewFrom_cons_ne s ls B' (by omega)]
end

/-- C79: every computed interaction is handed to the function once. -/
theorem calls_spec {v : Finset Nat → K} {tree : List (SI K)} {dim m : Nat} (hg : ∀ S, Lab dim S → S.length ≤ m → Good v tree S)
    (ho : ∀ B r, view tree B = some r → ∃ S, Lab dim S ∧ S.length ≤ m ∧ B = addr S) :
    ((callsL tree).map Prod.snd).Nodup ∧ ∀ x L, (x, L) ∈ callsL tree ↔ Lab dim L ∧ L.length ≤ m ∧ x = inter v L.toFinset := by
  have hent : ∀ S (h : Lab dim S), S.length ≤ m → (view tree (addr S)).map Rec.entry = some (inter v S.toFinset, S) := fun S hS hm => by
    obtain ⟨hne, nl, e⟩ := hg S hS hm
    rw [e, Option.map_some, goodRec, Rec.entry, inter_eq v (by simpa using hne)]
  have hc := callsL_paths 0 tree
  simp only [viewFrom_zero] at hc
  have hpath : ∀ B ∈ pathsL 0 tree, ∃ S, Lab dim S ∧ S.length ≤ m ∧ B = addr S := fun B hB => by
    rw [pathsL_mem, viewFrom_zero, Option.isSome_iff_exists] at hB
    obtain ⟨r, hr⟩ := hB
    exact ho B r hr
  refine ⟨?_, fun x L => ?_⟩
  · rw [hc, List.map_filterMap]
    refine List.Nodup.filterMap (fun B B' b hB hB' => ?_) (pathsL_nodup 0 tree)
    simp only [Option.map_map, Option.mem_def, Option.map_eq_some_iff] at hB hB'
    obtain ⟨r, hr, h1⟩ := hB
    obtain ⟨r', hr', h1'⟩ := hB'
    obtain ⟨S, hS, hm, rfl⟩ := ho B r hr
    obtain ⟨S', hS', hm', rfl⟩ := ho B' r' hr'
    have h2 := hent S hS hm
    have h2' := hent S' hS' hm'
    rw [hr, Option.map_some, Option.some.injEq] at h2
    rw [hr', Option.map_some, Option.some.injEq] at h2'
    rw [Function.comp, h2] at h1
    rw [Function.comp, h2'] at h1'
    dsimp only at h1 h1'
    rw [h1, h1']
  · rw [hc, List.mem_filterMap]
    constructor
    · rintro ⟨B, hB, h⟩
      obtain ⟨S, hS, hm, rfl⟩ := hpath B hB
      rw [hent S hS hm, Option.some.injEq, Prod.mk.injEq] at h
      obtain ⟨rfl, rfl⟩ := h
      exact ⟨hS, hm, rfl⟩
    · rintro ⟨hL, hm, rfl⟩
      refine ⟨addr L, ?_, hent L hL hm⟩
      rw [pathsL_mem, viewFrom_zero]
      obtain ⟨hne, nl, e⟩ := hg L hL hm
      rw [e]; rfl

end C3.Prob

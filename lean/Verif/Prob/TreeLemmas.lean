/-
The tree of interactions as a map from addresses to records.
-/
import Verif.Prob.Model
import Verif.Core.Buf

set_option linter.unusedSectionVars false

namespace C3.Prob
variable {K : Type}

/-- The fields of a node, with the number of its leaves. -/
structure Rec (K : Type) where
  val : Nat
  label : List Nat
  vari : K
  sub : Option K
  nl : Nat

/-- The record reached by an address. -/
def SI.view : SI K → List Nat → Option (Rec K)
  | .null, _ => none
  | .node v l x s ls, [] => some ⟨v, l, x, s, ls.length⟩
  | .node _ _ _ _ ls, i :: is => (ls[i]?).bind fun c => c.view is

def view (head : List (SI K)) : List Nat → Option (Rec K)
  | [] => none
  | i :: is => (head[i]?).bind fun c => c.view is

theorem walk_view : ∀ {s : SI K} {A : List Nat} {r : Rec K}, s.view A = some r → ∃ ls, s.walk A = .ok (.node r.val r.label r.vari r.sub ls) ∧ ls.length = r.nl
  | .null, A, _, h => by simp [SI.view] at h
  | .node v l x s ls, [], r, h => by
    rw [SI.view] at h
    obtain rfl := Option.some.inj h
    exact ⟨ls, rfl, rfl⟩
  | .node v l x s ls, i :: is, r, h => by
    rw [SI.view] at h
    cases hc : ls[i]? with
    | none => rw [hc] at h; cases h
    | some c =>
      rw [hc, Option.bind_some] at h
      obtain ⟨ls', e, hl⟩ := walk_view h
      exact ⟨ls', by rw [SI.walk, rd_of_getElem? hc, bind_ok, e], hl⟩

theorem view_append : ∀ {s n : SI K} {A : List Nat} (B : List Nat), s.walk A = .ok n → s.view (A ++ B) = n.view B
  | .null, _, A, _, h => by cases A <;> simp [SI.walk] at h
  | .node v l x s ls, n, [], B, h => by
    rw [SI.walk] at h
    obtain rfl := Except.ok.inj h
    rfl
  | .node v l x s ls, n, i :: is, B, h => by
    rw [SI.walk] at h
    cases hc : ls[i]? with
    | none => rw [rd, hc] at h; cases h
    | some c =>
      rw [rd_of_getElem? hc, bind_ok] at h
      rw [List.cons_append, SI.view, hc, Option.bind_some, view_append B h]

/-- Assigning through a pointer changes only what lies below the node. -/
theorem modify_ok {g : SI K → C (SI K)} {n' : SI K} : ∀ {s n : SI K} {A : List Nat}, s.walk A = .ok n → g n = .ok n' →
    ∃ s', s.modify g A = .ok s' ∧ (∀ B, s'.view (A ++ B) = n'.view B) ∧ ∀ B, ¬ A <+: B → s'.view B = s.view B
  | .null, _, A, h, _ => by cases A <;> simp [SI.walk] at h
  | .node v l x s ls, n, [], h, hg => by
    rw [SI.walk] at h
    obtain rfl := Except.ok.inj h
    exact ⟨n', by rw [SI.modify, hg], fun B => rfl, fun B hB => absurd (List.nil_prefix) hB⟩
  | .node v l x s ls, n, i :: is, h, hg => by
    rw [SI.walk] at h
    cases hc : ls[i]? with
    | none => rw [rd, hc] at h; cases h
    | some c =>
      rw [rd_of_getElem? hc, bind_ok] at h
      obtain ⟨c', e, h1, h2⟩ := modify_ok h hg
      have hi := (List.getElem?_eq_some_iff.1 hc).1
      refine ⟨.node v l x s (ls.set i c'), by rw [SI.modify, rd_of_getElem? hc, bind_ok, e, bind_ok, wr_ok _ hi]; rfl, fun B => ?_, fun B hB => ?_⟩
      · rw [List.cons_append, SI.view, List.getElem?_set_self hi, Option.bind_some, h1]
      · match B with
        | [] => rw [SI.view, SI.view, List.length_set]
        | j :: js =>
          rw [SI.view, SI.view]
          by_cases hij : i = j
          · subst hij
            rw [List.getElem?_set_self hi, hc, Option.bind_some, Option.bind_some, h2 js fun hp => hB (by simpa using hp)]
          · rw [List.getElem?_set_ne hij]

theorem nodeAt_view {head : List (SI K)} {A : List Nat} {r : Rec K} (h : view head A = some r) :
    ∃ ls, nodeAt head A = .ok (.node r.val r.label r.vari r.sub ls) ∧ ls.length = r.nl := by
  match A with
  | [] => cases h
  | i :: is =>
    rw [view] at h
    cases hc : head[i]? with
    | none => rw [hc] at h; cases h
    | some c =>
      rw [hc, Option.bind_some] at h
      obtain ⟨ls, e, hl⟩ := walk_view h
      exact ⟨ls, by rw [nodeAt, rd_of_getElem? hc, bind_ok, e], hl⟩

theorem head_append {head : List (SI K)} {n : SI K} {A : List Nat} (h : nodeAt head A = .ok n) (B : List Nat) : view head (A ++ B) = n.view B := by
  match A with
  | [] => cases h
  | i :: is =>
    rw [nodeAt] at h
    cases hc : head[i]? with
    | none => rw [rd, hc] at h; cases h
    | some c =>
      rw [rd_of_getElem? hc, bind_ok] at h
      rw [List.cons_append, view, hc, Option.bind_some, view_append B h]

theorem modAt_ok {g : SI K → C (SI K)} {n n' : SI K} {head : List (SI K)} {A : List Nat} (h : nodeAt head A = .ok n) (hg : g n = .ok n') :
    ∃ head', modAt g head A = .ok head' ∧ head'.length = head.length ∧ (∀ B, view head' (A ++ B) = n'.view B) ∧ ∀ B, ¬ A <+: B → view head' B = view head B := by
  match A with
  | [] => cases h
  | i :: is =>
    rw [nodeAt] at h
    cases hc : head[i]? with
    | none => rw [rd, hc] at h; cases h
    | some c =>
      rw [rd_of_getElem? hc, bind_ok] at h
      obtain ⟨c', e, h1, h2⟩ := modify_ok h hg
      have hi := (List.getElem?_eq_some_iff.1 hc).1
      refine ⟨head.set i c', by rw [modAt, rd_of_getElem? hc, bind_ok, e, bind_ok, wr_ok _ hi], by simp, fun B => ?_, fun B hB => ?_⟩
      · rw [List.cons_append, view, List.getElem?_set_self hi, Option.bind_some, h1]
      · match B with
        | [] => rfl
        | j :: js =>
          rw [view, view]
          by_cases hij : i = j
          · subst hij
            rw [List.getElem?_set_self hi, hc, Option.bind_some, Option.bind_some, h2 js fun hp => hB (by simpa using hp)]
          · rw [List.getElem?_set_ne hij]

/-- A visible node's ancestors are visible. -/
theorem view_prefix {head : List (SI K)} : ∀ {A B : List Nat} {r : Rec K}, view head (A ++ B) = some r → A ≠ [] → ∃ r', view head A = some r' := by
  have key : ∀ (s : SI K) (A B : List Nat) (r : Rec K), s.view (A ++ B) = some r → ∃ r', s.view A = some r' := by
    intro s A
    induction A generalizing s with
    | nil =>
      intro B r h
      cases s with
      | null => simp [SI.view] at h
      | node v l x s ls => exact ⟨_, rfl⟩
    | cons i is ih =>
      intro B r h
      cases s with
      | null => simp [SI.view] at h
      | node v l x s ls =>
        rw [List.cons_append, SI.view] at h
        cases hc : ls[i]? with
        | none => rw [hc] at h; cases h
        | some c =>
          rw [hc, Option.bind_some] at h
          obtain ⟨r', h'⟩ := ih c B r h
          exact ⟨r', by rw [SI.view, hc, Option.bind_some, h']⟩
  intro A B r h hA
  match A with
  | [] => exact absurd rfl hA
  | i :: is =>
    rw [List.cons_append, view] at h
    cases hc : head[i]? with
    | none => rw [hc] at h; cases h
    | some c =>
      rw [hc, Option.bind_some] at h
      obtain ⟨r', h'⟩ := key c is B r h
      exact ⟨r', by rw [view, hc, Option.bind_some, h']⟩

/-- Setting `var_subtract`. -/
theorem setSub_ok {head : List (SI K)} {A : List Nat} {r : Rec K} (h : view head A = some r) (t : K) :
    ∃ head', modAt (setSub t) head A = .ok head' ∧ head'.length = head.length ∧ view head' A = some { r with sub := some t } ∧ ∀ B, B ≠ A → view head' B = view head B := by
  obtain ⟨ls, e, hl⟩ := nodeAt_view h
  obtain ⟨head', e', l', h1, h2⟩ := modAt_ok (g := setSub t) e rfl
  refine ⟨head', e', l', ?_, fun B hB => ?_⟩
  · have := h1 []
    rw [List.append_nil] at this
    rw [this, SI.view, hl]
  · by_cases hp : A <+: B
    · obtain ⟨C, rfl⟩ := hp
      rw [h1, head_append e]
      match C with
      | [] => simp at hB
      | i :: is => rfl
    · exact h2 B hp

theorem fresh_view (v : Nat) (l : List Nat) (x : K) (n : Nat) (B : List Nat) :
    (SI.node v l x none (List.replicate n .null)).view B = if B = [] then some ⟨v, l, x, none, n⟩ else none := by
  match B with
  | [] => rw [SI.view, if_pos rfl, List.length_replicate]
  | i :: is =>
    rw [SI.view, if_neg (by simp), List.getElem?_replicate]
    split
    · rw [Option.bind_some, SI.view]
    · rfl

/-- A new leaf. -/
theorem push_ok {var : List Nat → C K} {head : List (SI K)} {A : List Nat} {r : Rec K} (h : view head A = some r) {val which nleaves : Nat} (hw : which < r.nl) {x : K}
    (hv : var (r.label ++ [val]) = .ok x) :
    ∃ head', push var head A val which nleaves = .ok head' ∧ head'.length = head.length ∧
      (∀ B, view head' (A ++ which :: B) = if B = [] then some ⟨val, r.label ++ [val], x, none, nleaves⟩ else none) ∧
      ∀ B, ¬ (A ++ [which]) <+: B → view head' B = view head B := by
  obtain ⟨ls, e, hl⟩ := nodeAt_view h
  obtain ⟨head', e', l', h1, h2⟩ := modAt_ok (g := setLeaf which (.node val (r.label ++ [val]) x none (List.replicate nleaves .null))) e
    (n' := .node r.val r.label r.vari r.sub (ls.set which (.node val (r.label ++ [val]) x none (List.replicate nleaves .null))))
    (by rw [setLeaf, wr_ok _ (by omega)]; rfl)
  refine ⟨head', ?_, l', fun B => ?_, fun B hB => ?_⟩
  · rw [push, e, bind_ok, SI.getLabel, bind_ok, siCreate, hv, bind_ok, pure_eq_ok, bind_ok, e']
  · rw [h1, SI.view, List.getElem?_set_self (by omega), Option.bind_some, fresh_view]
  · by_cases hp : A <+: B
    · obtain ⟨C, rfl⟩ := hp
      rw [h1, head_append e]
      match C with
      | [] => rw [SI.view, SI.view, List.length_set]
      | i :: is =>
        rw [SI.view, SI.view, List.getElem?_set_ne]
        rintro rfl
        exact hB ⟨is, by simp⟩
    · exact h2 B hp

end C3.Prob

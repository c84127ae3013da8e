/-
Arrays of pointers filled by loops: `none` is an entry not yet set. `Fills R N body T` says that `body` sets the positions
`T` (and keeps what was set), every value written at position `p` satisfying `R p`.
-/
import Verif.Core.Mem

namespace C3
variable {α : Type}

/-- All entries set: the array of values; an entry never set is a NULL pointer. -/
def allSome : List (Option α) → C (List α)
  | [] => .ok []
  | none :: _ => .error .null
  | some v :: l => do
    let r ← allSome l
    pure (v :: r)

theorem bind_of_bind {α β γ : Type} {x : C α} {g : α → C β} {k : β → C γ} {c : β} (h : x >>= g = .ok c) :
    (x >>= fun a => g a >>= k) = k c := by
  rw [← bind_assoc, h, bind_ok]

structure Cov (R : Nat → α → Prop) (N : Nat) (S : Nat → Prop) (b : List (Option α)) : Prop where
  len : b.length = N
  good : ∀ p v, b[p]? = some (some v) → R p v
  cov : ∀ p, p < N → S p → ∃ v, b[p]? = some (some v)

def Fills (R : Nat → α → Prop) (N : Nat) (body : List (Option α) → C (List (Option α))) (T : Nat → Prop) : Prop :=
  ∀ S b, Cov R N S b → ∃ b', body b = .ok b' ∧ Cov R N (fun p => S p ∨ T p) b'

theorem Fills.wr {R : Nat → α → Prop} {N idx : Nat} {v : α} (h : idx < N) (hv : R idx v) :
    Fills R N (fun b => wr b idx (some v)) (· = idx) := by
  intro S b hb
  refine ⟨b.set idx (some v), wr_ok _ (by rw [hb.len]; exact h), ?_, ?_, ?_⟩
  · rw [List.length_set, hb.len]
  · intro p w hw
    rw [List.getElem?_set] at hw
    split at hw
    · rename_i hp
      subst hp
      split at hw
      · simp only [Option.some.injEq] at hw; subst hw; exact hv
      · simp at hw
    · exact hb.good p w hw
  · intro p hpN hp
    rw [List.getElem?_set]
    by_cases hpi : idx = p
    · subst hpi; exact ⟨v, by rw [if_pos rfl, if_pos (by rw [hb.len]; exact h)]⟩
    · rw [if_neg hpi]
      rcases hp with hp | hp
      · exact hb.cov p hpN hp
      · exact absurd hp.symm hpi

theorem Fills.mono {R : Nat → α → Prop} {N : Nat} {body : List (Option α) → C (List (Option α))} {T T' : Nat → Prop}
    (h : Fills R N body T) (hT : ∀ p, p < N → T' p → T p) : Fills R N body T' := by
  intro S b hb
  obtain ⟨b', h1, h2⟩ := h S b hb
  refine ⟨b', h1, h2.len, h2.good, fun p hp hs => h2.cov p hp ?_⟩
  rcases hs with hs | hs
  · exact .inl hs
  · exact .inr (hT p hp hs)

theorem Fills.forN {R : Nat → α → Prop} {N n : Nat} {body : Nat → List (Option α) → C (List (Option α))}
    {T : Nat → Nat → Prop} (h : ∀ i < n, Fills R N (body i) (T i)) :
    Fills R N (C3.forN n body) (fun p => ∃ i < n, T i p) := by
  intro S b hb
  obtain ⟨b', h1, h2⟩ := forN_spec (I := fun i b => Cov R N (fun p => S p ∨ ∃ j < i, T j p) b) (n := n) (body := body)
    (s := b) ⟨hb.len, hb.good, fun p hpN hp => hb.cov p hpN (by
      rcases hp with hp | ⟨j, hj, _⟩
      · exact hp
      · exact absurd hj (Nat.not_lt_zero _))⟩
    (by
      intro i hi b hb
      obtain ⟨b', h1, h2⟩ := h i hi _ b hb
      refine ⟨b', h1, h2.len, h2.good, fun p hpN hp => h2.cov p hpN ?_⟩
      rcases hp with hp | ⟨j, hj, hT⟩
      · exact .inl (.inl hp)
      · by_cases hji : j = i
        · subst hji; exact .inr hT
        · exact .inl (.inr ⟨j, by omega, hT⟩))
  exact ⟨b', h1, h2⟩

theorem Fills.forR {R : Nat → α → Prop} {N s n : Nat} {body : Nat → List (Option α) → C (List (Option α))}
    {T : Nat → Nat → Prop} (h : ∀ i, s ≤ i → i < n → Fills R N (body i) (T i)) :
    Fills R N (C3.forR s n body) (fun p => ∃ i, s ≤ i ∧ i < n ∧ T i p) := by
  have := Fills.forN (n := n - s) (body := fun i => body (s + i)) (T := fun i => T (s + i)) (R := R) (N := N)
    (fun i hi => h (s + i) (by omega) (by omega))
  refine this.mono ?_
  rintro p _ ⟨i, h1, h2, h3⟩
  exact ⟨i - s, by omega, by rwa [Nat.add_sub_cancel' h1]⟩

theorem Fills.seq {R : Nat → α → Prop} {N : Nat} {f g : List (Option α) → C (List (Option α))} {T U : Nat → Prop}
    (hf : Fills R N f T) (hg : Fills R N g U) : Fills R N (fun b => f b >>= g) (fun p => T p ∨ U p) := by
  intro S b hb
  obtain ⟨b1, h1, h2⟩ := hf S b hb
  obtain ⟨b2, h3, h4⟩ := hg _ b1 h2
  refine ⟨b2, by show f b >>= g = _; rw [h1, bind_ok, h3], h4.len, h4.good, fun p hpN hp => h4.cov p hpN ?_⟩
  rcases hp with hp | hp | hp
  · exact .inl (.inl hp)
  · exact .inl (.inr hp)
  · exact .inr hp

theorem Fills.bind {β : Type} {R : Nat → α → Prop} {N : Nat} {c : C β} {v : β} (hc : c = .ok v)
    {f : β → List (Option α) → C (List (Option α))} {T : Nat → Prop} (hf : Fills R N (f v) T) :
    Fills R N (fun b => c >>= fun v => f v b) T := by
  subst hc; exact hf

theorem Fills.of_eq {R : Nat → α → Prop} {N : Nat} {f g : List (Option α) → C (List (Option α))} {T : Nat → Prop}
    (hf : Fills R N f T) (h : ∀ b, g b = f b) : Fills R N g T := by
  have : g = f := funext h
  rw [this]; exact hf

theorem allSome_ok {b : List (Option α)} (h : ∀ p, p < b.length → ∃ v, b[p]? = some (some v)) :
    ∃ l, allSome b = .ok l ∧ l.length = b.length ∧ ∀ p : Nat, b[p]? = l[p]?.map some := by
  induction b with
  | nil => exact ⟨[], rfl, rfl, fun p => by simp⟩
  | cons o b ih =>
    obtain ⟨v, hv⟩ := h 0 (by simp)
    rw [List.getElem?_cons_zero, Option.some.injEq] at hv
    subst hv
    obtain ⟨l, h1, h2, h3⟩ := ih (fun p hp => by simpa using h (p + 1) (by simpa using hp))
    refine ⟨v :: l, by rw [allSome, h1]; rfl, by simp [h2], ?_⟩
    rintro (_ | p)
    · rfl
    · simpa using h3 p

/-- A fresh array filled completely. -/
theorem Fills.finish {R : Nat → α → Prop} {N : Nat} {f : List (Option α) → C (List (Option α))} {T : Nat → Prop}
    (hf : Fills R N f T) (hT : ∀ p < N, T p) :
    ∃ b l, f (List.replicate N none) = .ok b ∧ allSome b = .ok l ∧ l.length = N ∧
      ∀ p < N, ∃ v, l[p]? = some v ∧ R p v := by
  obtain ⟨b, h1, h2⟩ := hf (fun _ => False) (List.replicate N none)
    ⟨List.length_replicate .., fun p v h => by
      rw [List.getElem?_replicate] at h
      split at h <;> simp at h, fun p _ h => h.elim⟩
  obtain ⟨l, h3, h4, h5⟩ := allSome_ok (b := b) (fun p hp => h2.cov p (by rw [← h2.len]; exact hp)
    (.inr (hT p (by rw [← h2.len]; exact hp))))
  refine ⟨b, l, h1, h3, h4.trans h2.len, fun p hp => ?_⟩
  obtain ⟨v, hv⟩ := h2.cov p hp (.inr (hT p hp))
  have := h5 p
  rw [hv] at this
  rcases hl : l[p]? with _ | w
  · rw [hl] at this; simp at this
  · rw [hl, Option.map_some, Option.some.injEq, Option.some.injEq] at this
    subst this
    exact ⟨v, rfl, h2.good p v hv⟩

theorem allSome_none {b : List (Option α)} {p : Nat} (h : b[p]? = some none) : allSome b = .error .null := by
  induction b generalizing p with
  | nil => simp at h
  | cons o b ih =>
    rcases o with _ | v
    · rfl
    · rcases p with _ | p
      · simp at h
      · rw [allSome, ih (p := p) (by simpa using h)]; rfl

end C3

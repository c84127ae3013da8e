/-
Arrays of values filled by loops in any order: `FillsV g N body T` says that `body` stores `g p` at every position `p` of
`T` and keeps positions that already hold their final value.
-/
import Verif.Core.Buf

namespace C3
variable {α : Type}

structure CovV (g : Nat → α) (N : Nat) (S : Nat → Prop) (b : List α) : Prop where
  len : b.length = N
  cov : ∀ p, p < N → S p → b[p]? = some (g p)

def FillsV (g : Nat → α) (N : Nat) (body : List α → C (List α)) (T : Nat → Prop) : Prop :=
  ∀ S b, CovV g N S b → ∃ b', body b = .ok b' ∧ CovV g N (fun p => S p ∨ T p) b'

theorem FillsV.wr {g : Nat → α} {N idx : Nat} {v : α} (h : idx < N) (hv : v = g idx) :
    FillsV g N (fun b => wr b idx v) (· = idx) := by
  subst hv
  intro S b hb
  refine ⟨b.set idx (g idx), wr_ok _ (by rw [hb.len]; exact h), by rw [List.length_set, hb.len], ?_⟩
  intro p hpN hp
  rw [List.getElem?_set]
  by_cases hpi : idx = p
  · subst hpi; rw [if_pos rfl, if_pos (by rw [hb.len]; exact h)]
  · rw [if_neg hpi]
    rcases hp with hp | hp
    · exact hb.cov p hpN hp
    · exact absurd hp.symm hpi

theorem FillsV.mono {g : Nat → α} {N : Nat} {body : List α → C (List α)} {T T' : Nat → Prop}
    (h : FillsV g N body T) (hT : ∀ p, p < N → T' p → T p) : FillsV g N body T' := by
  intro S b hb
  obtain ⟨b', h1, h2⟩ := h S b hb
  refine ⟨b', h1, h2.len, fun p hp hs => h2.cov p hp ?_⟩
  rcases hs with hs | hs
  · exact .inl hs
  · exact .inr (hT p hp hs)

theorem FillsV.forN {g : Nat → α} {N n : Nat} {body : Nat → List α → C (List α)}
    {T : Nat → Nat → Prop} (h : ∀ i < n, FillsV g N (body i) (T i)) :
    FillsV g N (C3.forN n body) (fun p => ∃ i < n, T i p) := by
  intro S b hb
  obtain ⟨b', h1, h2⟩ := forN_spec (I := fun i b => CovV g N (fun p => S p ∨ ∃ j < i, T j p) b) (n := n) (body := body)
    (s := b) ⟨hb.len, fun p hpN hp => hb.cov p hpN (by
      rcases hp with hp | ⟨j, hj, _⟩
      · exact hp
      · exact absurd hj (Nat.not_lt_zero _))⟩
    (by
      intro i hi b hb
      obtain ⟨b', h1, h2⟩ := h i hi _ b hb
      refine ⟨b', h1, h2.len, fun p hpN hp => h2.cov p hpN ?_⟩
      rcases hp with hp | ⟨j, hj, hT⟩
      · exact .inl (.inl hp)
      · by_cases hji : j = i
        · subst hji; exact .inr hT
        · exact .inl (.inr ⟨j, by omega, hT⟩))
  exact ⟨b', h1, h2⟩

theorem FillsV.forR {g : Nat → α} {N s n : Nat} {body : Nat → List α → C (List α)}
    {T : Nat → Nat → Prop} (h : ∀ i, s ≤ i → i < n → FillsV g N (body i) (T i)) :
    FillsV g N (C3.forR s n body) (fun p => ∃ i, s ≤ i ∧ i < n ∧ T i p) := by
  have := FillsV.forN (n := n - s) (body := fun i => body (s + i)) (T := fun i => T (s + i)) (g := g) (N := N)
    (fun i hi => h (s + i) (by omega) (by omega))
  refine this.mono ?_
  rintro p _ ⟨i, h1, h2, h3⟩
  exact ⟨i - s, by omega, by rwa [Nat.add_sub_cancel' h1]⟩

theorem FillsV.seq {h : Nat → α} {N : Nat} {f g : List α → C (List α)} {T U : Nat → Prop}
    (hf : FillsV h N f T) (hg : FillsV h N g U) : FillsV h N (fun b => f b >>= g) (fun p => T p ∨ U p) := by
  intro S b hb
  obtain ⟨b1, h1, h2⟩ := hf S b hb
  obtain ⟨b2, h3, h4⟩ := hg _ b1 h2
  refine ⟨b2, by show f b >>= g = _; rw [h1, bind_ok, h3], h4.len, fun p hpN hp => h4.cov p hpN ?_⟩
  rcases hp with hp | hp | hp
  · exact .inl (.inl hp)
  · exact .inl (.inr hp)
  · exact .inr hp

theorem FillsV.bind {β : Type} {g : Nat → α} {N : Nat} {c : C β} {v : β} (hc : c = .ok v)
    {f : β → List α → C (List α)} {T : Nat → Prop} (hf : FillsV g N (f v) T) :
    FillsV g N (fun b => c >>= fun v => f v b) T := by
  subst hc; exact hf

theorem FillsV.finish {g : Nat → α} {N : Nat} {f : List α → C (List α)} {T : Nat → Prop} (hf : FillsV g N f T)
    (hT : ∀ p < N, T p) {a : List α} (ha : a.length = N) : f a = .ok ((List.range N).map g) := by
  obtain ⟨b, h1, h2⟩ := hf (fun _ => False) a ⟨ha, fun p _ h => h.elim⟩
  rw [h1]
  congr 1
  apply List.ext_getElem?
  intro p
  by_cases hp : p < N
  · rw [h2.cov p hp (.inr (hT p hp)), List.getElem?_map, List.getElem?_range hp]; rfl
  · rw [List.getElem?_eq_none (by rw [h2.len]; omega), List.getElem?_eq_none (by simp; omega)]

end C3

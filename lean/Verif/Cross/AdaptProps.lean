/-
C147: rank adaptation of the cross approximation of discrete tensors.
-/
import Verif.Cross.Adapt
import Verif.Cross.Props
import Mathlib.Data.Finset.Max
import Mathlib.Tactic.IntervalCases

namespace C3.Adp
open C3.Cross

variable {ρ T : Type}

theorem bind_inv {α β : Type} {x : C α} {f : α → C β} {b : β} (h : (x >>= f) = .ok b) : ∃ a, x = .ok a ∧ f a = .ok b := by
  rcases x with e | a
  · exact absurd h (by simp)
  · exact ⟨a, rfl, h⟩

theorem rd_inv {α : Type} {l : List α} {i : Nat} {v : α} (h : rd l i = .ok v) : l[i]? = some v := by
  unfold rd at h
  split at h
  · rename_i w e; rw [e, Except.ok.inj h]
  · exact absurd h (by simp)

theorem wr_inv {α : Type} {l l' : List α} {i : Nat} {v : α} (h : wr l i v = .ok l') : i < l.length ∧ l' = l.set i v := by
  unfold wr at h
  split at h
  · rename_i e; exact ⟨e, (Except.ok.inj h).symm⟩
  · exact absurd h (by simp)

theorem forN_inv {σ : Type} (I : Nat → σ → Prop) {n : Nat} {body : Nat → σ → C σ} {s s' : σ} (h : forN n body s = .ok s') (h0 : I 0 s)
    (hs : ∀ i < n, ∀ s s', I i s → body i s = .ok s' → I (i + 1) s') : I n s' := by
  induction n generalizing s' with
  | zero => rw [forN_zero] at h; exact Except.ok.inj h ▸ h0
  | succ n ih =>
    rw [forN_succ] at h
    obtain ⟨a, h1, h2⟩ := bind_inv h
    exact hs n (by omega) _ _ (ih h1 (fun i hi => hs i (by omega))) h2

/-- The index sets belong to the ranks: left of core `i` there are `ranks[i]` indices of `i` modes, right of it `ranks[i+1]` indices of the
remaining modes. -/
structure Fit (o : O ρ) : Prop where
  ranks : o.ranks.length = o.dim + 1
  left : ∀ i < o.dim, ∃ s, o.left[i]? = some s ∧ s.length = o.ranks.getD i 0 ∧ ∀ ix ∈ s, ix.length = i
  right : ∀ i < o.dim, ∃ s, o.right[i]? = some s ∧ s.length = o.ranks.getD (i + 1) 0 ∧ ∀ ix ∈ s, ix.length = o.dim - i - 1

/-- The ranks after a stage: those which the rounded train kept are increased. -/
def Kicked (dim kickrank : Nat) (rr ranks ranks' : List Nat) : Prop :=
  ranks'.length = ranks.length ∧ ∀ i, ranks'.getD i 0 =
    if 1 ≤ i ∧ i < dim ∧ ranks.getD i 0 = rr.getD i 0 then ranks.getD i 0 + kickrank else ranks.getD i 0

theorem kick_inv {dim kr : Nat} {rr ranks : List Nat} {d : Bool} {v : List Nat} (h : kick dim kr rr ranks = .ok (d, v)) :
    Kicked dim kr rr ranks v ∧ (d = true ↔ ∀ i, 1 ≤ i → i < dim → ranks.getD i 0 ≠ rr.getD i 0) := by
  unfold kick forR at h
  have key := forN_inv (fun k (s : Bool × List Nat) => Kicked (1 + k) kr rr ranks s.2 ∧
      (s.1 = true ↔ ∀ i, 1 ≤ i → i < 1 + k → ranks.getD i 0 ≠ rr.getD i 0)) h
    ⟨⟨rfl, fun i => by rw [if_neg (by omega)]⟩, by simp; intro i h1 h2; omega⟩ (by
      rintro k hk ⟨d, s⟩ ⟨d', s'⟩ ⟨⟨q1, q2⟩, q3⟩ hb
      dsimp only at q1 q2 q3 hb ⊢
      obtain ⟨a, h1, hb⟩ := bind_inv hb
      obtain ⟨b, h2, hb⟩ := bind_inv hb
      have h1 := rd_inv h1
      have h2 := rd_inv h2
      have ea : a = ranks.getD (1 + k) 0 := by
        have := q2 (1 + k)
        rw [if_neg (by omega), List.getD_eq_getElem?_getD, h1] at this
        exact this
      have eb : b = rr.getD (1 + k) 0 := by rw [List.getD_eq_getElem?_getD, h2]; rfl
      by_cases hc : a = b
      · rw [if_pos hc] at hb
        obtain ⟨v, h3, hb⟩ := bind_inv hb
        obtain ⟨h4, rfl⟩ := wr_inv h3
        obtain ⟨rfl, rfl⟩ := Prod.mk.inj (Except.ok.inj hb)
        refine ⟨⟨by simpa using q1, fun i => ?_⟩, ?_⟩
        · by_cases hi : 1 + k = i
          · subst hi
            rw [List.getD_eq_getElem?_getD, List.getElem?_set_self h4, if_pos ⟨by omega, by omega, by rw [← ea, ← eb, hc]⟩, ← ea]; rfl
          · rw [List.getD_eq_getElem?_getD, List.getElem?_set_ne hi, ← List.getD_eq_getElem?_getD, q2 i]
            refine if_congr ⟨fun ⟨x, y, z⟩ => ⟨x, by omega, z⟩, fun ⟨x, y, z⟩ => ⟨x, by omega, z⟩⟩ rfl rfl
        · refine ⟨fun h => absurd h (by simp), fun h => ?_⟩
          exact absurd (by rw [← ea, ← eb, hc]) (h (1 + k) (by omega) (by omega))
      · rw [if_neg hc] at hb
        obtain ⟨rfl, rfl⟩ := Prod.mk.inj (Except.ok.inj hb)
        refine ⟨⟨q1, fun i => ?_⟩, ?_⟩
        · rw [q2 i]
          refine if_congr ⟨fun ⟨x, y, z⟩ => ⟨x, by omega, z⟩, fun ⟨x, y, z⟩ => ⟨x, ?_, z⟩⟩ rfl rfl
          rcases Nat.lt_or_ge i (1 + k) with hlt | hge
          · exact hlt
          · have : i = 1 + k := by omega
            subst this
            exact absurd (by rw [ea, eb, z]) hc
        · rw [q3]
          refine ⟨fun h i x y => ?_, fun h i x y => h i x (by omega)⟩
          by_cases hi : i = 1 + k
          · subst hi; rw [← ea, ← eb]; exact hc
          · exact h i x (by omega))
  obtain ⟨⟨k1, k2⟩, k3⟩ := key
  dsimp only at k1 k2 k3
  refine ⟨⟨k1, fun i => ?_⟩, k3.trans ?_⟩
  · rw [k2 i]
    refine if_congr ⟨fun ⟨x, y, z⟩ => ⟨x, by omega, z⟩, fun ⟨x, y, z⟩ => ⟨x, by omega, z⟩⟩ rfl rfl
  · exact ⟨fun h i x y => h i x (by omega), fun h i x y => h i x (by omega)⟩

theorem naive_inv {dim N : Nat} {nvals : List Nat} {s : List (List Nat)} (h : naive dim N nvals = .ok s) :
    s.length = N ∧ ∀ ix ∈ s, ix.length = dim := by
  unfold naive at h
  obtain ⟨st, h1, h2⟩ := bind_inv h
  cases h2
  refine forN_inv (fun _ (st : Nat × List (List Nat)) => st.2.length = N ∧ ∀ ix ∈ st.2, ix.length = dim) h1
    ⟨by simp, fun ix hx => by rw [List.eq_of_mem_replicate hx]; simp⟩ ?_
  rintro i _ ⟨d, s⟩ ⟨d', s'⟩ ⟨q1, q2⟩ hb
  dsimp only at q1 q2 ⊢
  unfold naiveStep at hb
  obtain ⟨n, _, hb⟩ := bind_inv hb
  dsimp only at hb
  by_cases hd : dim = 0
  · rw [if_pos hd] at hb
    obtain ⟨_, rfl⟩ := Prod.mk.inj (Except.ok.inj hb)
    exact ⟨q1, q2⟩
  · rw [if_neg hd] at hb
    obtain ⟨ix, h3, hb⟩ := bind_inv hb
    obtain ⟨ix', h4, hb⟩ := bind_inv hb
    obtain ⟨s2, h5, hb⟩ := bind_inv hb
    obtain ⟨_, rfl⟩ := Prod.mk.inj (Except.ok.inj hb)
    obtain ⟨_, rfl⟩ := wr_inv h4
    obtain ⟨h6, rfl⟩ := wr_inv h5
    refine ⟨by simpa using q1, fun x hx => ?_⟩
    rcases List.mem_or_eq_of_mem_set hx with hx | rfl
    · exact q2 x hx
    · rw [List.length_set]; exact q2 _ (List.mem_of_getElem? (rd_inv h3))

/-- Rebuilding gives index sets that belong to the ranks; nothing else changes. -/
theorem rebuild_inv {o o' : O ρ} (hr : o.ranks.length = o.dim + 1) (h : rebuild o = .ok o') :
    Fit o' ∧ o'.dim = o.dim ∧ o'.nvals = o.nvals ∧ o'.ranks = o.ranks ∧ o'.rest = o.rest := by
  unfold rebuild at h
  obtain ⟨s, h1, h⟩ := bind_inv h
  obtain ⟨s', h2, h⟩ := bind_inv h
  cases h
  let Q : Nat → List (List (List Nat)) × List (List (List Nat)) → Prop := fun k s => ∀ i < k,
    (∃ t, s.1[i]? = some t ∧ t.length = o.ranks.getD i 0 ∧ ∀ ix ∈ t, ix.length = i) ∧
    ∃ t, s.2[i]? = some t ∧ t.length = o.ranks.getD (i + 1) 0 ∧ ∀ ix ∈ t, ix.length = o.dim - i - 1
  have upd : ∀ {s : List (List (List Nat)) × List (List (List Nat))} {k m : Nat} {l r : List (List Nat)}, Q m s → (m ≤ k + 1) →
      k < s.1.length → k < s.2.length → (l.length = o.ranks.getD k 0 ∧ ∀ ix ∈ l, ix.length = k) →
      (r.length = o.ranks.getD (k + 1) 0 ∧ ∀ ix ∈ r, ix.length = o.dim - k - 1) →
      ∀ n, (∀ i < n, i < m ∨ i = k) → Q n (s.1.set k l, s.2.set k r) := by
    intro s k m l r hQ _ hl hr' h3 h4 n hn i hi
    by_cases e : k = i
    · subst e
      exact ⟨⟨l, by simp [hl], h3⟩, r, by simp [hr'], h4⟩
    · have := hQ i (by rcases hn i hi with h | h <;> omega)
      simpa only [List.getElem?_set_ne e] using this
  have k1 : Q o.dim s := forN_inv Q h1 (fun i hi => absurd hi (by omega)) (by
    rintro k hk s s' q hb
    obtain ⟨nr, a1, hb⟩ := bind_inv hb
    obtain ⟨r, a2, hb⟩ := bind_inv hb
    obtain ⟨nl, a3, hb⟩ := bind_inv hb
    obtain ⟨l, a4, hb⟩ := bind_inv hb
    cases hb
    obtain ⟨b2, rfl⟩ := wr_inv a2
    obtain ⟨b4, rfl⟩ := wr_inv a4
    have a1 := rd_inv a1
    have a3 := rd_inv a3
    refine upd q (by omega) b4 b2 ⟨?_, fun ix hx => by rw [List.eq_of_mem_replicate hx]; simp⟩
      ⟨?_, fun ix hx => by rw [List.eq_of_mem_replicate hx]; simp⟩ _ (fun i hi => by omega)
    · rw [List.length_replicate, List.getD_eq_getElem?_getD, a3]; rfl
    · rw [List.length_replicate, List.getD_eq_getElem?_getD, a1]; rfl)
  have k2 : Q o.dim s' := forN_inv (fun _ s => Q o.dim s) h2 k1 (by
    rintro k hk s s' q hb
    obtain ⟨p, a1, hb⟩ := bind_inv hb
    obtain ⟨r, a2, hb⟩ := bind_inv hb
    obtain ⟨l, a4, hb⟩ := bind_inv hb
    cases hb
    obtain ⟨b2, rfl⟩ := wr_inv a2
    obtain ⟨b4, rfl⟩ := wr_inv a4
    unfold naiveSets at a1
    obtain ⟨nr, c1, a1⟩ := bind_inv a1
    obtain ⟨rt, c2, a1⟩ := bind_inv a1
    obtain ⟨nl, c3, a1⟩ := bind_inv a1
    obtain ⟨lf, c4, a1⟩ := bind_inv a1
    cases a1
    have c1 := rd_inv c1
    have c3 := rd_inv c3
    have d2 := naive_inv c2
    have d4 := naive_inv c4
    intro i hi
    by_cases e : k = i
    · subst e
      refine ⟨⟨lf, by simp [b4], ?_, d4.2⟩, rt, by simp [b2], ?_, d2.2⟩
      · rw [d4.1, List.getD_eq_getElem?_getD, c3]; rfl
      · rw [d2.1, List.getD_eq_getElem?_getD, c1]; rfl
    · have := q i hi
      simpa only [List.getElem?_set_ne e] using this)
  exact ⟨⟨hr, fun i hi => (k2 i hi).1, fun i hi => (k2 i hi).2⟩, rfl, rfl, rfl, rfl⟩

/-- The contract of the cross approximation: dimension, sizes, ranks and the shapes of the index sets stay, and the call is counted. -/
def CrossLaw (cross : O ρ → C (T × O ρ)) (cnt : ρ → Nat) : Prop := ∀ o a, Fit o → cross o = .ok a →
  Fit a.2 ∧ a.2.dim = o.dim ∧ a.2.nvals = o.nvals ∧ a.2.ranks = o.ranks ∧ cnt a.2.rest = cnt o.rest + 1

variable {cross : O ρ → C (T × O ρ)} {round : T → T} {rk : T → List Nat} {cnt : ρ → Nat} {kr maxiter : Nat}

/-- What is known after a stage: the train is the rounding of a cross approximation made with fitting options `o`, whose kept ranks have been
increased afterwards; `d` tells whether no rank was kept. -/
def After (cross : O ρ → C (T × O ρ)) (round : T → T) (rk : T → List Nat) (cnt : ρ → Nat) (kr : Nat) (dim : Nat) (nvals : List Nat) (n : Nat)
    (t : T) (o' : O ρ) (d : Prop) : Prop :=
  ∃ o a, Fit o ∧ o.dim = dim ∧ o.nvals = nvals ∧ cross o = .ok a ∧ t = round a.1 ∧ Fit a.2 ∧ a.2.ranks = o.ranks ∧
    Kicked dim kr (rk t) o.ranks o'.ranks ∧ o'.left = a.2.left ∧ o'.right = a.2.right ∧ o'.dim = dim ∧ o'.nvals = nvals ∧
    cnt o'.rest = n ∧ (d ↔ ∀ i, 1 ≤ i → i < dim → o.ranks.getD i 0 ≠ (rk t).getD i 0)

theorem stage_inv (hc : CrossLaw cross cnt) {o : O ρ} (ho : Fit o) {s : Bool × T × O ρ} (h : stage cross round rk kr o = .ok s) :
    After cross round rk cnt kr o.dim o.nvals (cnt o.rest + 1) s.2.1 s.2.2 (s.1 = true) := by
  unfold stage at h
  obtain ⟨a, h1, h⟩ := bind_inv h
  obtain ⟨⟨d, v⟩, h2, h⟩ := bind_inv h
  cases h
  obtain ⟨l1, l2, l3, l4, l5⟩ := hc o a ho h1
  obtain ⟨k1, k2⟩ := kick_inv h2
  rw [l2, l4] at k1 k2
  exact ⟨o, a, ho, rfl, rfl, h1, rfl, l1, l4, k1, rfl, rfl, l2, l3, l5, k2⟩

theorem After.ranks_len {dim n : Nat} {nvals : List Nat} {t : T} {o' : O ρ} {d : Prop}
    (h : After cross round rk cnt kr dim nvals n t o' d) : o'.ranks.length = o'.dim + 1 := by
  obtain ⟨o, a, h1, h2, h3, h4, h5, h6, h7, h8, h9, h10, h11, _⟩ := h
  rw [h8.1, h1.ranks, h2, h11]

theorem loop_inv (hc : CrossLaw cross cnt) {dim : Nat} {nvals : List Nat} (c0 : Nat) : ∀ (fuel iter : Nat) (s : Bool × T × O ρ) (r : T × O ρ),
    loop cross round rk kr maxiter fuel iter s = .ok r → iter ≤ maxiter + 1 →
    (∃ d : Bool, After cross round rk cnt kr dim nvals (c0 + iter + 1) s.2.1 s.2.2 (d = true) ∧
      s.1 = if 1 ≤ iter ∧ maxiter < iter then true else d) →
    ∃ (k : Nat) (d : Bool), k ≤ maxiter + 1 ∧ After cross round rk cnt kr dim nvals (c0 + k + 1) r.1 r.2 (d = true) ∧
      (d = true ∨ k = maxiter + 1) := by
  intro fuel
  induction fuel with
  | zero =>
    rintro iter ⟨b, t, o⟩ r h hi ⟨d, h1, h2⟩
    cases b with
    | false => exact absurd h (by simp [loop])
    | true =>
      rw [loop] at h
      cases h
      refine ⟨iter, d, hi, h1, ?_⟩
      dsimp only at h2
      by_cases hx : 1 ≤ iter ∧ maxiter < iter
      · exact .inr (by omega)
      · rw [if_neg hx] at h2; exact .inl h2.symm
  | succ fuel ih =>
    rintro iter ⟨b, t, o⟩ r h hi ⟨d, h1, h2⟩
    cases b with
    | true =>
      rw [loop] at h
      cases h
      refine ⟨iter, d, hi, h1, ?_⟩
      dsimp only at h2
      by_cases hx : 1 ≤ iter ∧ maxiter < iter
      · exact .inr (by omega)
      · rw [if_neg hx] at h2; exact .inl h2.symm
    | false =>
      rw [loop] at h
      obtain ⟨o2, g1, h⟩ := bind_inv h
      obtain ⟨s, g2, h⟩ := bind_inv h
      dsimp only at h2
      have hlt : iter ≤ maxiter := by
        by_contra hcon
        rw [if_pos ⟨by omega, by omega⟩] at h2
        exact absurd h2 (by simp)
      have hlen := h1.ranks_len
      obtain ⟨f1, f2, f3, f4, f5⟩ := rebuild_inv hlen g1
      have st := stage_inv hc f1 g2
      obtain ⟨_, _, _, _, _, _, _, _, _, _, _, _, e1, e2, e3, _⟩ := h1
      refine ih (iter + 1) _ r h (by omega) ⟨s.1, ?_, ?_⟩
      · have : c0 + (iter + 1) + 1 = cnt o2.rest + 1 := by
          have e3 : cnt o.rest = c0 + iter + 1 := e3
          rw [f5, e3]; omega
        rw [this, ← show o2.dim = dim from f2.trans e1, ← show o2.nvals = nvals from f3.trans e2]
        exact st
      · dsimp only
        refine if_congr ⟨fun h => ⟨by omega, h⟩, fun h => h.2⟩ rfl rfl

/-- **C147** Whenever the adaptation returns: the train is the rounding of a cross approximation whose index sets belonged to its ranks; the
cross approximation ran `k` times, `k ≤ maxiter + 2` and `k = 1` when `maxiter = 0`; if `k` is smaller than that bound then rounding changed
every inner rank and the options hold exactly the ranks used; ranks only grow, by `kickrank`, where rounding kept them. -/
theorem adapt_value (hc : CrossLaw cross cnt) {o : O ρ} (ho : Fit o) {r : T × O ρ} (h : adapt cross round rk kr maxiter o = .ok r) :
    ∃ (k : Nat) (d : Bool), After cross round rk cnt kr o.dim o.nvals (cnt o.rest + k) r.1 r.2 (d = true) ∧ 1 ≤ k ∧
      k ≤ (if maxiter = 0 then 1 else maxiter + 2) ∧ (d = true ∨ k = if maxiter = 0 then 1 else maxiter + 2) := by
  unfold adapt at h
  obtain ⟨s, h1, h⟩ := bind_inv h
  have st := stage_inv hc ho h1
  by_cases hm : maxiter = 0
  · rw [if_pos hm] at h ⊢
    cases h
    exact ⟨1, s.1, st, le_refl _, le_refl _, .inr rfl⟩
  · rw [if_neg hm] at h ⊢
    obtain ⟨k, d, k1, k2, k3⟩ := loop_inv hc (dim := o.dim) (nvals := o.nvals) (cnt o.rest) _ _ _ _ h (by omega) ⟨s.1, st, by rw [if_neg (by omega)]⟩
    exact ⟨k + 1, d, by rw [← Nat.add_assoc]; exact k2, by omega, by omega, k3.imp id (by omega)⟩

/-- **C147** After a converged adaptation (no inner rank kept) the options fit again and hold the ranks of the last approximation. -/
theorem converged_fit {dim n : Nat} {nvals : List Nat} {t : T} {o' : O ρ} (h : After cross round rk cnt kr dim nvals n t o' True) :
    Fit o' ∧ ∀ i, 1 ≤ i → i < dim → o'.ranks.getD i 0 ≠ (rk t).getD i 0 := by
  obtain ⟨o, a, h1, h2, h3, h4, h5, h6, h7, h8, h9, h10, h11, h12, h13, h14⟩ := h
  have h14 := h14.1 trivial
  have e : ∀ i, o'.ranks.getD i 0 = a.2.ranks.getD i 0 := fun i => by
    rw [h8.2 i, if_neg (fun ⟨x, y, z⟩ => h14 i x y z), h7]
  have hd : a.2.dim = dim := by
    have h1' := h1.ranks
    have h6' := h6.ranks
    rw [h7] at h6'
    omega
  refine ⟨⟨by rw [h8.1, h1.ranks, h2, h11], ?_, ?_⟩, fun i x y => by rw [e, h7]; exact h14 i x y⟩
  · intro i hi
    rw [h9, e]; exact h6.left i (by omega)
  · intro i hi
    rw [h10, e, h11, ← hd]; exact h6.right i (by omega)

/-- **C147** finding: when the adaptation ends because of `maxiter` with a kept inner rank, the ranks have been increased without
rebuilding the index sets: the options no longer fit, and a further cross approximation would read indices that are not there. -/
theorem exhausted_counterexample {dim n : Nat} {nvals : List Nat} {t : T} {o' : O ρ} (hk : 0 < kr)
    (h : After cross round rk cnt kr dim nvals n t o' False) : ¬ Fit o' := by
  obtain ⟨o, a, h1, h2, h3, h4, h5, h6, h7, h8, h9, h10, h11, h12, h13, h14⟩ := h
  intro hf
  refine h14.2 fun i x y z => ?_
  have hd : a.2.dim = dim := by
    have h1' := h1.ranks
    have h6' := h6.ranks
    rw [h7] at h6'
    omega
  obtain ⟨s, s1, s2, _⟩ := hf.left i (by omega)
  obtain ⟨s', s1', s2', _⟩ := h6.left i (by omega)
  rw [h9, s1'] at s1
  cases s1
  rw [h8.2 i, if_pos ⟨x, y, z⟩] at s2
  rw [h7] at s2'
  omega

/-! ### The adaptation ends -/

theorem naive_total {dim N : Nat} {nvals : List Nat} (hn : 0 < nvals.length) (hN : N ≤ nvals.getD 0 0) :
    ∃ s, naive dim N nvals = .ok s := by
  rcases Nat.eq_zero_or_pos dim with rfl | hd
  · obtain ⟨st, h1, _⟩ := forN_spec (n := N) (s := (0, List.replicate N (List.replicate 0 0))) (body := naiveStep 0 nvals)
      (I := fun _ st => st.1 = 0) rfl (by
        rintro i hi ⟨d, s⟩ rfl
        refine ⟨(0, s), ?_, rfl⟩
        rw [naiveStep, rd_getD 0 hn, bind_ok]
        simp only
        rw [if_neg (show ¬ nvals.getD 0 0 < i + 1 by omega), if_pos trivial]; rfl)
    exact ⟨st.2, by rw [naive, h1, bind_ok]; rfl⟩
  · exact ⟨_, naive_value_partial hd hn hN⟩

theorem rebuild_total {o : O ρ} (hr : o.ranks.length = o.dim + 1) (hl : o.dim ≤ o.left.length) (hrt : o.dim ≤ o.right.length)
    (hv : o.nvals.length = o.dim) (hb : ∀ i, ∀ j < o.dim, o.ranks.getD i 0 ≤ o.nvals.getD j 0) : ∃ o', rebuild o = .ok o' := by
  obtain ⟨s, e1, i1, i2⟩ := forN_spec (n := o.dim) (s := (o.left, o.right)) (body := fun ii s => do
      let nr ← rd o.ranks (ii + 1)
      let r ← wr s.2 ii (List.replicate nr (List.replicate (o.dim - ii - 1) 0))
      let nl ← rd o.ranks ii
      let l ← wr s.1 ii (List.replicate nl (List.replicate ii 0))
      .ok (l, r)) (I := fun _ s => o.dim ≤ s.1.length ∧ o.dim ≤ s.2.length) ⟨hl, hrt⟩ (by
      rintro i hi ⟨l, r⟩ ⟨q1, q2⟩
      dsimp only at q1 q2
      refine ⟨(l.set i _, r.set i _), by rw [rd_getD 0 (by omega), bind_ok, wr_ok _ (by dsimp only; omega), bind_ok, rd_getD 0 (by omega), bind_ok, wr_ok _ (by dsimp only; omega), bind_ok], ?_⟩
      simpa using ⟨q1, q2⟩)
  obtain ⟨s', e2, _⟩ := forN_spec (n := o.dim - 1) (s := s) (body := fun ii s => do
      let p ← naiveSets o.dim o.ranks o.nvals ii
      let r ← wr s.2 ii p.1
      let l ← wr s.1 ii p.2
      .ok (l, r)) (I := fun _ s => o.dim ≤ s.1.length ∧ o.dim ≤ s.2.length) ⟨i1, i2⟩ (by
      rintro i hi ⟨l, r⟩ ⟨q1, q2⟩
      dsimp only at q1 q2
      obtain ⟨x, hx⟩ := naive_total (dim := o.dim - i - 1) (N := o.ranks.getD (i + 1) 0) (nvals := o.nvals.drop i)
        (by rw [List.length_drop]; omega) (by
          have := hb (i + 1) i (by omega)
          rwa [List.getD_eq_getElem?_getD (l := o.nvals.drop i), List.getElem?_drop, Nat.add_zero, ← List.getD_eq_getElem?_getD])
      obtain ⟨y, hy⟩ := naive_total (dim := i) (N := o.ranks.getD i 0) (nvals := o.nvals) (by omega) (hb i 0 (by omega))
      refine ⟨(l.set i y, r.set i x), ?_, by simpa using ⟨q1, q2⟩⟩
      rw [naiveSets, rd_getD 0 (by omega), bind_ok, hx, bind_ok, rd_getD 0 (by omega), bind_ok, hy, bind_ok, pure_eq_ok, bind_ok,
        wr_ok _ (by dsimp only; omega), bind_ok, wr_ok _ (by dsimp only; omega), bind_ok])
  exact ⟨_, by rw [rebuild, e1, bind_ok, e2, bind_ok]⟩

theorem kick_total {dim kr : Nat} {rr ranks : List Nat} (hr : dim ≤ rr.length) (hk : dim ≤ ranks.length) :
    ∃ s, kick dim kr rr ranks = .ok s := by
  obtain ⟨s, e, _⟩ := forN_spec (n := dim - 1) (s := (true, ranks)) (body := fun i (s : Bool × List Nat) => do
      let a ← rd s.2 (1 + i)
      let b ← rd rr (1 + i)
      if a = b then do
        let v ← wr s.2 (1 + i) (a + kr)
        .ok (false, v)
      else .ok s) (I := fun _ s => dim ≤ s.2.length) hk (by
      rintro i hi ⟨d, s⟩ q
      dsimp only at q
      by_cases hc : s.getD (1 + i) 0 = rr.getD (1 + i) 0
      · refine ⟨(false, s.set (1 + i) (s.getD (1 + i) 0 + kr)), ?_, by simpa using q⟩
        rw [rd_getD 0 (by dsimp only; omega), bind_ok, rd_getD 0 (by omega), bind_ok, if_pos hc, wr_ok _ (by dsimp only; omega), bind_ok]
      · refine ⟨(d, s), ?_, q⟩
        rw [rd_getD 0 (by dsimp only; omega), bind_ok, rd_getD 0 (by omega), bind_ok, if_neg hc])
  exact ⟨s, e⟩

/-- Options that can be rebuilt, with ranks at most `B`. -/
structure Room (dim : Nat) (nvals : List Nat) (B : Nat) (o : O ρ) : Prop where
  dim_eq : o.dim = dim
  nvals_eq : o.nvals = nvals
  ranks_len : o.ranks.length = dim + 1
  left_len : dim ≤ o.left.length
  right_len : dim ≤ o.right.length
  bound : ∀ i, o.ranks.getD i 0 ≤ B

theorem le_length {α : Type} {P : Nat → α → Prop} {l : List α} {n : Nat} (h : ∀ i < n, ∃ s, l[i]? = some s ∧ P i s) : n ≤ l.length := by
  rcases Nat.eq_zero_or_pos n with rfl | hn
  · omega
  · obtain ⟨s, h1, _⟩ := h (n - 1) (by omega)
    have := (List.getElem?_eq_some_iff.1 h1).1
    omega

theorem stage_total (hc : CrossLaw cross cnt) (ht : ∀ o, Fit o → ∃ a, cross o = .ok a) {o : O ρ} (ho : Fit o)
    (hrk : ∀ t, o.dim ≤ (rk t).length) {B : Nat} (hB : ∀ i, o.ranks.getD i 0 ≤ B) :
    ∃ s, stage cross round rk kr o = .ok s ∧ Room o.dim o.nvals (B + kr) s.2.2 := by
  obtain ⟨a, h1⟩ := ht o ho
  obtain ⟨l1, l2, l3, l4, _⟩ := hc o a ho h1
  obtain ⟨k, h2⟩ := kick_total (dim := a.2.dim) (kr := kr) (rr := rk (round a.1)) (ranks := a.2.ranks) (by rw [l2]; exact hrk _)
    (by rw [l1.ranks]; omega)
  refine ⟨_, by rw [stage, h1, bind_ok]; dsimp only; rw [h2, bind_ok], ?_⟩
  obtain ⟨⟨k1, k2⟩, _⟩ := kick_inv (d := k.1) (v := k.2) h2
  refine ⟨l2, l3, by rw [← l2, ← l1.ranks]; exact k1, ?_, ?_, fun i => ?_⟩
  · rw [← l2]; exact le_length l1.left
  · rw [← l2]; exact le_length l1.right
  · have := hB i
    rw [← l4] at this
    dsimp only
    rw [k2 i]
    split <;> omega

theorem loop_total (hc : CrossLaw cross cnt) (ht : ∀ o, Fit o → ∃ a, cross o = .ok a) {dim : Nat} {nvals : List Nat}
    (hrk : ∀ t, dim ≤ (rk t).length) (hv : nvals.length = dim) {B : Nat} (hb : ∀ j < dim, B + (maxiter + 1) * kr ≤ nvals.getD j 0) :
    ∀ (fuel iter : Nat) (s : Bool × T × O ρ), iter + fuel = maxiter + 1 → Room dim nvals (B + (iter + 1) * kr) s.2.2 →
      (fuel = 0 → s.1 = true) → ∃ r, loop cross round rk kr maxiter fuel iter s = .ok r := by
  intro fuel
  induction fuel with
  | zero =>
    rintro iter ⟨b, t, o⟩ _ _ h
    cases h rfl
    exact ⟨(t, o), by rw [loop]⟩
  | succ fuel ih =>
    rintro iter ⟨b, t, o⟩ he hs _
    cases b with
    | true => exact ⟨(t, o), by rw [loop]⟩
    | false =>
      have hle : (iter + 1) * kr ≤ (maxiter + 1) * kr := Nat.mul_le_mul_right _ (by omega)
      obtain ⟨s1, s2, s3, s4, s5, s6⟩ := hs
      dsimp only at s1 s2 s3 s4 s5 s6
      obtain ⟨o', h1⟩ := rebuild_total (o := o) (by rw [s3, s1]) (by omega) (by omega) (by rw [s2, hv, s1]) (by
        intro i j hj
        have := hb j (by omega)
        have := s6 i
        rw [s2]; omega)
      obtain ⟨f1, f2, f3, f4, _⟩ := rebuild_inv (by rw [s3, s1]) h1
      obtain ⟨s', h2, h3⟩ := stage_total (kr := kr) (round := round) hc ht f1 (by rw [f2, s1]; exact hrk) (B := B + (iter + 1) * kr) (by rw [f4]; exact s6)
      obtain ⟨r, hr⟩ := ih (iter + 1) (if maxiter < iter + 1 then true else s'.1, s'.2) (by omega) (by
          rw [f2, s1, f3, s2] at h3
          rw [Nat.succ_mul (iter + 1), ← Nat.add_assoc]; exact h3) (by
          intro h0; dsimp only; rw [if_pos (by omega)])
      exact ⟨r, by rw [loop, h1, bind_ok, h2, bind_ok, hr]⟩

/-- **C147** The adaptation ends with a result, whatever the rounding does, when the cross approximation succeeds on fitting options and the
sizes of all modes are at least the largest rank that the increases can reach. -/
theorem adapt_total_partial (hc : CrossLaw cross cnt) (ht : ∀ o, Fit o → ∃ a, cross o = .ok a) {o : O ρ} (ho : Fit o)
    (hrk : ∀ t, o.dim ≤ (rk t).length) (hv : o.nvals.length = o.dim)
    (hb : ∀ i, ∀ j < o.dim, o.ranks.getD i 0 + (maxiter + 1) * kr ≤ o.nvals.getD j 0) :
    ∃ r, adapt cross round rk kr maxiter o = .ok r := by
  have hB : ∃ B, (∀ i, o.ranks.getD i 0 ≤ B) ∧ ∀ j < o.dim, B + (maxiter + 1) * kr ≤ o.nvals.getD j 0 := by
    obtain ⟨m, hm⟩ : ∃ m, ∀ i, o.ranks.getD i 0 ≤ o.ranks.getD m 0 := by
      obtain ⟨m, _, hm⟩ := Finset.exists_max_image (Finset.range (o.dim + 1)) (fun i => o.ranks.getD i 0) ⟨0, by simp⟩
      refine ⟨m, fun i => ?_⟩
      by_cases hi : i < o.dim + 1
      · exact hm i (by simpa using hi)
      · rw [List.getD_eq_getElem?_getD, List.getElem?_eq_none (by rw [ho.ranks]; omega)]; exact Nat.zero_le _
    exact ⟨_, hm, fun j hj => hb m j hj⟩
  obtain ⟨B, hB1, hB2⟩ := hB
  obtain ⟨s, h1, h2⟩ := stage_total (kr := kr) (round := round) hc ht ho hrk hB1
  unfold adapt
  rw [h1, bind_ok]
  by_cases hm : maxiter = 0
  · rw [if_pos hm]; exact ⟨_, rfl⟩
  · rw [if_neg hm]
    exact loop_total hc ht hrk hv hB2 _ _ _ (by omega) (by rw [Nat.zero_add, Nat.one_mul]; exact h2) (fun h => absurd h (by omega))

/-! ### Examples -/

/-- Two modes of sizes 9; the cross approximation returns the ranks it was called with and is counted. -/
def exO : O Nat := ⟨2, [9, 9], [1, 1, 1], [[[]], [[0]]], [[[0]], [[]]], 0⟩
def exCross (o : O Nat) : C (List Nat × O Nat) := .ok (o.ranks, { o with rest := o.rest + 1 })
/-- Rounding to rank at most three. -/
def exRound (t : List Nat) : List Nat := t.map (min 3)

theorem exFit : Fit exO where
  ranks := rfl
  left i hi := by
    have : i < 2 := hi
    interval_cases i
    · exact ⟨[[]], rfl, rfl, by simp⟩
    · exact ⟨[[0]], rfl, rfl, by simp⟩
  right i hi := by
    have : i < 2 := hi
    interval_cases i
    · exact ⟨[[0]], rfl, rfl, by simp [exO]⟩
    · exact ⟨[[]], rfl, rfl, by simp [exO]⟩

theorem exLaw : CrossLaw exCross (fun n => n) := by
  intro o a ho h
  cases h
  exact ⟨⟨ho.ranks, ho.left, ho.right⟩, rfl, rfl, rfl, rfl⟩

/-- Ranks one, two, three are kept, four is rounded: four calls. -/
example : (adapt exCross exRound id 1 5 exO).map (fun r => (r.1, r.2.ranks, r.2.rest)) = .ok ([1, 3, 1], [1, 4, 1], 4) := by decide

example (r : List Nat × O Nat) (h : adapt exCross exRound id 1 5 exO = .ok r) : r.2.rest ≤ 7 := by
  obtain ⟨k, _, ⟨_, _, _, _, _, _, _, _, _, _, _, _, _, _, h1, _⟩, _, h2, _⟩ := adapt_value exLaw exFit h
  have h1 : r.2.rest = 0 + k := h1
  have h2 : k ≤ 7 := h2
  omega

example : ∃ r, adapt exCross exRound (fun t => t ++ [0, 0]) 1 5 exO = .ok r :=
  adapt_total_partial exLaw (fun _ _ => ⟨_, rfl⟩) exFit (fun t => by simp [exO]) rfl (by
    intro i j hj
    have : j < 2 := hj
    have h9 : exO.nvals.getD j 0 = 9 := by interval_cases j <;> rfl
    rw [h9]
    rcases i with _ | _ | _ | i <;> simp [exO])

/-- **C147** finding: `maxiter` does not bound the number of passes: with `maxiter = 2` there are three passes after the first
approximation, four calls in all; and the options then hold rank 5 with index sets for rank 4. -/
theorem maxiter_counterexample : (adapt exCross id id 1 2 exO).map (fun r => (r.1, r.2.ranks, r.2.rest, (r.2.left.getD 1 []).length)) =
    .ok ([1, 4, 1], [1, 5, 1], 4, 4) := by decide

example : ¬ Fit ({ exO with ranks := [1, 2, 1], rest := 1 } : O Nat) := by
  have st := stage_inv (round := id) (rk := id) (kr := 1) exLaw exFit (s := (false, [1, 1, 1], { exO with ranks := [1, 2, 1], rest := 1 })) rfl
  exact exhausted_counterexample (kr := 1) (by omega) (by simpa using st)

end C3.Adp

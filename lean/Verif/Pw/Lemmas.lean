/- Lemmas on piecewise polynomial trees. -/
import Verif.Pw.Spec
import Mathlib.Algebra.Order.Field.Basic
import Mathlib.Tactic.Linarith

set_option linter.unusedSectionVars false

namespace C3.Pw
open C3.Poly (Ope)
variable {K : Type} [Field K] [LinearOrder K] [IsStrictOrderedRing K]

theorem mem_leavesL {bs : List (Pw K)} {f : Ope K} : f ∈ leavesL bs ↔ ∃ b ∈ bs, f ∈ b.leaves := by
  induction bs with
  | nil => simp [leavesL]
  | cons b bs ih => simp [leavesL, ih]

theorem fullL_iff {bs : List (Pw K)} : FullL bs ↔ ∀ b ∈ bs, b.Full := by
  induction bs with
  | nil => simp [FullL]
  | cons b bs ih => simp [FullL, ih]

mutual
theorem leaves_ne : ∀ {p : Pw K}, p.Full → p.leaves ≠ []
  | .leaf _, _ => by simp [Pw.leaves]
  | .node bs, h => by
    rw [Pw.Full] at h
    rw [Pw.leaves]
    exact leavesL_ne h.2 h.1
theorem leavesL_ne : ∀ {bs : List (Pw K)}, FullL bs → bs ≠ [] → leavesL bs ≠ []
  | [], _, h => absurd rfl h
  | b :: bs, h, _ => by
    rw [FullL] at h
    rw [leavesL]
    simp [leaves_ne h.1]
end

mutual
theorem ub_ok : ∀ {p : Pw K} (h : p.Full), p.ub = .ok (p.leaves.getLast (leaves_ne h)).ub
  | .leaf f, _ => rfl
  | .node bs, h => by
    have h' := h
    rw [Pw.Full] at h'
    exact ubL_ok h'.2 h'.1
theorem ubL_ok : ∀ {bs : List (Pw K)} (h : FullL bs) (h0 : bs ≠ []), ubL bs = .ok ((leavesL bs).getLast (leavesL_ne h h0)).ub
  | [], _, h0 => absurd rfl h0
  | [b], h, _ => by
    rw [FullL] at h
    rw [ubL, ub_ok h.1]
    simp [leavesL]
  | b :: c :: bs, h, _ => by
    have h' := h
    rw [FullL] at h'
    rw [ubL, ubL_ok h'.2 (by simp)]
    congr 2
    have hn := leavesL_ne h'.2 (by simp)
    have : leavesL (b :: c :: bs) = b.leaves ++ leavesL (c :: bs) := by rw [leavesL]
    simp only [this]
    rw [List.getLast_append_of_ne_nil _ hn]
end

mutual
theorem lb_ok : ∀ {p : Pw K} (h : p.Full), p.lb = .ok (p.leaves.head (leaves_ne h)).lb
  | .leaf f, _ => rfl
  | .node bs, h => by
    have h' := h
    rw [Pw.Full] at h'
    exact lbL_ok h'.2 h'.1
theorem lbL_ok : ∀ {bs : List (Pw K)} (h : FullL bs) (h0 : bs ≠ []), lbL bs = .ok ((leavesL bs).head (leavesL_ne h h0)).lb
  | [], _, h0 => absurd rfl h0
  | b :: bs, h, _ => by
    have h' := h
    rw [FullL] at h'
    rw [lbL, lb_ok h'.1]
    congr 2
    have : leavesL (b :: bs) = b.leaves ++ leavesL bs := by rw [leavesL]
    simp only [this]
    rw [List.head_append_of_ne_nil (leaves_ne h'.1)]
end

/-- Upper bounds increase from left to right. -/
theorem Consec.pairwise {ls : List (Ope K)} (h : Consec ls) : ls.Pairwise fun f g => f.ub < g.ub := by
  induction ls with
  | nil => exact List.Pairwise.nil
  | cons f ls ih =>
    obtain ⟨h1, h2⟩ := h
    have ih := ih ⟨h1.tail, fun g hg => h2 g (List.mem_cons_of_mem _ hg)⟩
    refine List.pairwise_cons.2 ⟨?_, ih⟩
    cases ls with
    | nil => simp
    | cons g ls =>
      have hc : f.ub = g.lb := (List.isChain_cons_cons.1 h1).1
      have hg := h2 g (by simp)
      intro k hk
      rcases List.mem_cons.1 hk with rfl | hk
      · rw [hc]; exact hg
      · have := (List.pairwise_cons.1 ih).1 k hk
        rw [hc]; exact hg.trans this

theorem last_max {ls : List (Ope K)} (h : ls.Pairwise fun f g => f.ub < g.ub) (h0 : ls ≠ []) {f : Ope K} (hf : f ∈ ls) : f.ub ≤ (ls.getLast h0).ub := by
  induction ls with
  | nil => exact absurd rfl h0
  | cons a ls ih =>
    rw [List.pairwise_cons] at h
    by_cases hn : ls = []
    · subst hn
      obtain rfl : f = a := by simpa using hf
      exact le_refl _
    · rw [List.getLast_cons hn]
      rcases List.mem_cons.1 hf with rfl | hf
      · exact (h.1 _ (List.getLast_mem hn)).le
      · exact ih h.2 hn hf

/-- The search for a leaf in a sorted tree is the search in the list of leaves. -/
def found (tol x : K) (ls : List (Ope K)) : Option (Ope K) := ls.find? fun f => decide (x < f.ub + tol)

theorem found_none {tol x : K} {ls : List (Ope K)} (h : ∀ f ∈ ls, f.ub + tol ≤ x) : found tol x ls = none := by
  rw [found, List.find?_eq_none]
  intro f hf
  simp [h f hf]

theorem found_some {tol x : K} {ls : List (Ope K)} {g : Ope K} (hg : g ∈ ls) (h : x < g.ub + tol) : ∃ f, found tol x ls = some f := by
  cases hf : found tol x ls with
  | some f => exact ⟨f, rfl⟩
  | none =>
    rw [found, List.find?_eq_none] at hf
    exact absurd (by simpa using h) (hf g hg)

mutual
theorem evalW_ok {tol dflt : K} {ev : Ope K → K → C K} {x : K} : ∀ {p : Pw K} (h : p.Full), (p.leaves.Pairwise fun f g => f.ub < g.ub) →
    x < (p.leaves.getLast (leaves_ne h)).ub + tol → ∃ f, found tol x p.leaves = some f ∧ p.evalW tol dflt ev x = ev f x
  | .leaf f, h, _, hx => by
    refine ⟨f, ?_, rfl⟩
    have : x < f.ub + tol := hx
    simp [found, Pw.leaves, this]
  | .node bs, h, hs, hx => by
    have h' := h
    rw [Pw.Full] at h'
    have hl := evalL_ok (tol := tol) (dflt := dflt) (ev := ev) (x := x) h'.2 hs
    rcases hl with ⟨f, h1, h2⟩ | ⟨h1, -⟩
    · exact ⟨f, h1, h2⟩
    · obtain ⟨f, hf⟩ := found_some (List.getLast_mem (leaves_ne h)) hx
      rw [show (Pw.node bs).leaves = leavesL bs from rfl, h1] at hf
      cases hf
theorem evalL_ok {tol dflt : K} {ev : Ope K → K → C K} {x : K} : ∀ {bs : List (Pw K)}, FullL bs → ((leavesL bs).Pairwise fun f g => f.ub < g.ub) →
    (∃ f, found tol x (leavesL bs) = some f ∧ evalL tol dflt ev x bs = ev f x) ∨ (found tol x (leavesL bs) = none ∧ evalL tol dflt ev x bs = .ok dflt)
  | [], _, _ => by
    right
    exact ⟨rfl, rfl⟩
  | b :: bs, h, hs => by
    have h' := h
    rw [FullL] at h'
    rw [leavesL] at hs ⊢
    have hp := List.pairwise_append.1 hs
    rw [evalL, ub_ok h'.1, bind_ok]
    have hfa : ∀ l m, found tol x (l ++ m) = (found tol x l).or (found tol x m) := fun l m => by rw [found, List.find?_append]; rfl
    split
    · rename_i hx
      obtain ⟨f, h1, h2⟩ := evalW_ok (tol := tol) (dflt := dflt) (ev := ev) h'.1 hp.1 hx
      left
      exact ⟨f, by rw [hfa, h1]; rfl, h2⟩
    · rename_i hx
      have hn : found tol x b.leaves = none := found_none fun f hf => by
        have := last_max hp.1 (leaves_ne h'.1) hf
        have := not_lt.1 hx
        linarith
      rw [hfa, hn, Option.none_or]
      exact evalL_ok h'.2 hp.2.1
end

mutual
theorem mapC_ok {op : Ope K → C (Ope K)} {R : Ope K → Ope K → Prop} : ∀ {p : Pw K}, (∀ f ∈ p.leaves, ∃ r, op f = .ok r ∧ R f r) →
    ∃ q, p.mapC op = .ok q ∧ List.Forall₂ R p.leaves q.leaves ∧ (p.Full → q.Full) ∧ q.isLeaf = p.isLeaf ∧ q.isFlat = p.isFlat
  | .leaf f, h => by
    obtain ⟨r, e, hr⟩ := h f (by simp [Pw.leaves])
    exact ⟨.leaf r, by rw [Pw.mapC, e]; rfl, List.Forall₂.cons hr .nil, id, rfl, rfl⟩
  | .node bs, h => by
    obtain ⟨cs, e, h1, h2, h3, h4⟩ := mapL_ok (bs := bs) h
    refine ⟨.node cs, by rw [Pw.mapC, e]; rfl, h1, fun hp => ?_, rfl, h4⟩
    rw [Pw.Full] at hp ⊢
    exact ⟨fun c => hp.1 (List.length_eq_zero_iff.1 (by rw [← h3, c]; rfl)), h2 hp.2⟩
theorem mapL_ok {op : Ope K → C (Ope K)} {R : Ope K → Ope K → Prop} : ∀ {bs : List (Pw K)}, (∀ f ∈ leavesL bs, ∃ r, op f = .ok r ∧ R f r) →
    ∃ cs, mapL op bs = .ok cs ∧ List.Forall₂ R (leavesL bs) (leavesL cs) ∧ (FullL bs → FullL cs) ∧ cs.length = bs.length ∧ cs.all Pw.isLeaf = bs.all Pw.isLeaf
  | [], _ => ⟨[], rfl, .nil, id, rfl, rfl⟩
  | b :: bs, h => by
    rw [leavesL] at h
    obtain ⟨c, e, h1, h2, h5, -⟩ := mapC_ok (p := b) (fun f hf => h f (List.mem_append_left _ hf))
    obtain ⟨cs, es, h3, h4, hl, h6⟩ := mapL_ok (bs := bs) (fun f hf => h f (List.mem_append_right _ hf))
    refine ⟨c :: cs, by rw [mapL, e, bind_ok, es]; rfl, ?_, fun hf => ?_, by simp [hl], by simp [h5, h6]⟩
    · rw [leavesL, leavesL]
      exact List.rel_append h1 h3
    · rw [FullL] at hf ⊢
      exact ⟨h2 hf.1, h4 hf.2⟩
end

mutual
theorem nregBase_eq : ∀ (p : Pw K) (n : Nat), p.nregBase n = n + p.leaves.length
  | .leaf _, n => rfl
  | .node bs, n => nregL_eq bs n
theorem nregL_eq : ∀ (bs : List (Pw K)) (n : Nat), nregL n bs = n + (leavesL bs).length
  | [], n => rfl
  | b :: bs, n => by rw [nregL, nregBase_eq b n, nregL_eq bs, leavesL, List.length_append]; omega
end

mutual
theorem fillB_ok : ∀ (p : Pw K) (nodes : List K) (on : Nat), on + p.leaves.length ≤ nodes.length →
    p.fillB nodes on = .ok (nodes.take on ++ p.leaves.map (·.ub) ++ nodes.drop (on + p.leaves.length), on + p.leaves.length)
  | .leaf f, nodes, on, h => by
    have h' : on < nodes.length := by simpa [Pw.leaves] using h
    rw [Pw.fillB, wr_ok _ h', bind_ok, pure_eq_ok]
    congr 2
    rw [List.set_eq_take_append_cons_drop, if_pos h']
    simp [Pw.leaves]
  | .node bs, nodes, on, h => fillBL_ok bs nodes on h
theorem fillBL_ok : ∀ (bs : List (Pw K)) (nodes : List K) (on : Nat), on + (leavesL bs).length ≤ nodes.length →
    fillBL nodes on bs = .ok (nodes.take on ++ (leavesL bs).map (·.ub) ++ nodes.drop (on + (leavesL bs).length), on + (leavesL bs).length)
  | [], nodes, on, _ => by simp [fillBL, leavesL]
  | b :: bs, nodes, on, h => by
    rw [leavesL, List.length_append] at h
    rw [fillBL, fillB_ok b nodes on (by omega), bind_ok]
    dsimp only
    have hl : (nodes.take on).length = on := by rw [List.length_take]; omega
    rw [fillBL_ok bs _ _ (by simp only [List.length_append, hl, List.length_map, List.length_drop]; omega), leavesL]
    congr 2
    · have e1 : (nodes.take on ++ b.leaves.map (·.ub) ++ nodes.drop (on + b.leaves.length)).take (on + b.leaves.length) = nodes.take on ++ b.leaves.map (·.ub) := by
        rw [List.take_append_of_le_length (by simp [hl]), List.take_of_length_le (by simp [hl])]
      rw [e1]
      have e2 : (nodes.take on ++ b.leaves.map (·.ub) ++ nodes.drop (on + b.leaves.length)).drop (on + b.leaves.length + (leavesL bs).length) =
          nodes.drop (on + b.leaves.length + (leavesL bs).length) := by
        rw [List.drop_append, List.drop_of_length_le (by simp [hl]), List.nil_append, List.drop_drop]
        congr 1
        simp only [List.length_append, hl, List.length_map]; omega
      rw [e2]
      simp [List.length_append, Nat.add_assoc]
    · rw [List.length_append]; omega
end

mutual
theorem copyLeaves_ok {R : Ope K → Ope K → Prop} : ∀ (p : Pw K) (br : List (Option (Pw K))) (on : Nat), (∀ f ∈ p.leaves, ∃ r, C3.Poly.copy f = .ok r ∧ R f r) →
    on + p.leaves.length ≤ br.length → ∃ ls, List.Forall₂ R p.leaves ls ∧
      p.copyLeaves br on = .ok (br.take on ++ ls.map (fun f => some (.leaf f)) ++ br.drop (on + p.leaves.length), on + p.leaves.length)
  | .leaf f, br, on, h, hb => by
    have h' : on < br.length := by simpa [Pw.leaves] using hb
    obtain ⟨r, e, hr⟩ := h f (by simp [Pw.leaves])
    refine ⟨[r], .cons hr .nil, ?_⟩
    rw [Pw.copyLeaves, Pw.copy, Pw.mapC, e, bind_ok, pure_eq_ok, bind_ok, wr_ok _ h', bind_ok, pure_eq_ok]
    congr 2
    rw [List.set_eq_take_append_cons_drop, if_pos h']
    simp [Pw.leaves]
  | .node bs, br, on, h, hb => copyLeavesL_ok bs br on h hb
theorem copyLeavesL_ok {R : Ope K → Ope K → Prop} : ∀ (bs : List (Pw K)) (br : List (Option (Pw K))) (on : Nat),
    (∀ f ∈ leavesL bs, ∃ r, C3.Poly.copy f = .ok r ∧ R f r) → on + (leavesL bs).length ≤ br.length → ∃ ls, List.Forall₂ R (leavesL bs) ls ∧
      copyLeavesL br on bs = .ok (br.take on ++ ls.map (fun f => some (.leaf f)) ++ br.drop (on + (leavesL bs).length), on + (leavesL bs).length)
  | [], br, on, _, _ => ⟨[], .nil, by simp [copyLeavesL, leavesL]⟩
  | b :: bs, br, on, h, hb => by
    rw [leavesL] at h
    rw [leavesL, List.length_append] at hb
    obtain ⟨l1, r1, e1⟩ := copyLeaves_ok b br on (fun f hf => h f (List.mem_append_left _ hf)) (by omega)
    have hl : (br.take on).length = on := by rw [List.length_take]; omega
    have n1 := r1.length_eq
    obtain ⟨l2, r2, e2⟩ := copyLeavesL_ok bs (br.take on ++ l1.map (fun f => some (.leaf f)) ++ br.drop (on + b.leaves.length)) (on + b.leaves.length)
      (fun f hf => h f (List.mem_append_right _ hf)) (by simp only [List.length_append, hl, List.length_map, List.length_drop]; omega)
    refine ⟨l1 ++ l2, by rw [leavesL]; exact List.rel_append r1 r2, ?_⟩
    rw [copyLeavesL, e1, bind_ok]
    dsimp only
    rw [e2, leavesL]
    congr 2
    · have e3 : (br.take on ++ l1.map (fun f => some (Pw.leaf f)) ++ br.drop (on + b.leaves.length)).take (on + b.leaves.length) =
          br.take on ++ l1.map (fun f => some (Pw.leaf f)) := by
        rw [List.take_append_of_le_length (by simp [hl, n1]), List.take_of_length_le (by simp [hl, n1])]
      have e4 : (br.take on ++ l1.map (fun f => some (Pw.leaf f)) ++ br.drop (on + b.leaves.length)).drop (on + b.leaves.length + (leavesL bs).length) =
          br.drop (on + b.leaves.length + (leavesL bs).length) := by
        rw [List.drop_append, List.drop_of_length_le (by simp [hl, n1]), List.nil_append, List.drop_drop]
        congr 1
        simp only [List.length_append, hl, List.length_map]; omega
      rw [e3, e4]
      simp [List.length_append, Nat.add_assoc]
    · rw [List.length_append]; omega
end

theorem nonNull_ok (ls : List (Pw K)) : nonNull (ls.map some) = .ok ls := by
  induction ls with
  | nil => rfl
  | cons a ls ih => rw [List.map_cons, nonNull, ih]; rfl

theorem leavesL_map_leaf (ls : List (Ope K)) : leavesL (ls.map Pw.leaf) = ls := by
  induction ls with
  | nil => rfl
  | cons a ls ih => rw [List.map_cons, leavesL, ih]; rfl

theorem fullL_map_leaf (ls : List (Ope K)) : FullL (ls.map Pw.leaf) := by
  rw [fullL_iff]
  intro b hb
  obtain ⟨f, -, rfl⟩ := List.mem_map.1 hb
  trivial

mutual
theorem integrate_ok {I : Ope K → K} : ∀ {p : Pw K}, (∀ f ∈ p.leaves, C3.Poly.integrate f = .ok (I f)) → p.integrate = .ok ((p.leaves.map I).sum)
  | .leaf f, h => by rw [Pw.integrate, h f (by simp [Pw.leaves])]; simp [Pw.leaves]
  | .node bs, h => by rw [Pw.integrate, integL_ok 0 h, zero_add]; rfl
theorem integL_ok {I : Ope K → K} (out : K) : ∀ {bs : List (Pw K)}, (∀ f ∈ leavesL bs, C3.Poly.integrate f = .ok (I f)) →
    integL out bs = .ok (out + ((leavesL bs).map I).sum)
  | [], _ => by simp [integL, leavesL]
  | b :: bs, h => by
    rw [leavesL] at h
    rw [integL, integrate_ok (p := b) (fun f hf => h f (List.mem_append_left _ hf)), bind_ok, integL_ok _ (bs := bs) (fun f hf => h f (List.mem_append_right _ hf)), leavesL]
    simp [add_assoc]
end

end C3.Pw

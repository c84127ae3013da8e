/- The common refinement of two partitions (property C77). -/
import Verif.Pw.Props

set_option linter.unusedSectionVars false

namespace C3.Pw
variable {K : Type} [Field K] [LinearOrder K] [IsStrictOrderedRing K]

theorem mem_take_iff {l : List K} {n : Nat} {x : K} : x ∈ l.take n ↔ ∃ i, ∃ h : i < l.length, i < n ∧ l[i] = x := by
  rw [List.mem_take_iff_getElem]
  constructor
  · rintro ⟨i, hi, rfl⟩; exact ⟨i, by omega, by omega, rfl⟩
  · rintro ⟨i, h, hn, rfl⟩; exact ⟨i, by omega, rfl⟩

theorem rd_getElem {l : List K} {i : Nat} (h : i < l.length) : rd l i = .ok l[i] := rd_of_getElem? (List.getElem?_eq_getElem h)

/-- State of the merging loop: the nodes written are sorted, are those of both lists passed so far, and lie below all others. -/
structure MInv (na nb nodes : List K) (ia ib c : Nat) : Prop where
  pos : 1 ≤ c
  le : c + 1 ≤ ia + ib
  leA : ia ≤ na.length
  leB : ib ≤ nb.length
  len : nodes.length = na.length + nb.length
  sorted : (nodes.take c).Pairwise (· < ·)
  mem : ∀ x, x ∈ nodes.take c ↔ x ∈ na.take ia ∨ x ∈ nb.take ib
  lowA : ∀ y ∈ nodes.take c, ∀ i (h : i < na.length), ia ≤ i → y < na[i]
  lowB : ∀ y ∈ nodes.take c, ∀ i (h : i < nb.length), ib ≤ i → y < nb[i]

theorem take_succ_mem {l : List K} {n : Nat} (h : n < l.length) {x : K} : x ∈ l.take (n + 1) ↔ x ∈ l.take n ∨ x = l[n] := by
  rw [List.take_succ_eq_append_getElem h, List.mem_append, List.mem_singleton]

theorem MInv.push {na nb nodes : List K} {ia ib c ia' ib' : Nat} (h : MInv na nb nodes ia ib c) {v : K} (h1 : ia ≤ ia') (h2 : ib ≤ ib') (h3 : ia + ib < ia' + ib')
    (hia : ia' ≤ na.length) (hib : ib' ≤ nb.length) (hc : c < nodes.length)
    (hm : ∀ x, (x ∈ na.take ia' ∨ x ∈ nb.take ib') ↔ (x ∈ na.take ia ∨ x ∈ nb.take ib) ∨ x = v)
    (hv : ∀ y ∈ nodes.take c, y < v)
    (hA : ∀ i (h : i < na.length), ia' ≤ i → v < na[i]) (hB : ∀ i (h : i < nb.length), ib' ≤ i → v < nb[i]) :
    MInv na nb (nodes.set c v) ia' ib' (c + 1) := by
  have e : (nodes.set c v).take (c + 1) = nodes.take c ++ [v] := by
    rw [List.take_succ_eq_append_getElem (by simpa using hc), List.take_set_of_le le_rfl, List.getElem_set_self]
  have hmem : ∀ y, y ∈ (nodes.set c v).take (c + 1) ↔ y ∈ nodes.take c ∨ y = v := fun y => by rw [e]; simp
  refine ⟨by omega, by have := h.le; omega, hia, hib, by simp [h.len], ?_, fun x => ?_, fun y hy i hi hle => ?_, fun y hy i hi hle => ?_⟩
  · rw [e, List.pairwise_append]
    exact ⟨h.sorted, List.pairwise_singleton _ _, fun a ha b hb => by rw [List.mem_singleton] at hb; rw [hb]; exact hv a ha⟩
  · rw [hmem, h.mem, hm]
  · rcases (hmem y).1 hy with hy | rfl
    · exact h.lowA y hy i hi (by omega)
    · exact hA i hi hle
  · rcases (hmem y).1 hy with hy | rfl
    · exact h.lowB y hy i hi (by omega)
    · exact hB i hi hle

theorem mergeLoop_ok {eps ub : K} {na nb : List K} (sa : na.Pairwise (· < ·)) (sb : nb.Pairwise (· < ·)) (h0 : 0 < eps)
    (hsep : ∀ u ∈ na, ∀ v ∈ nb, u = v ∨ eps ≤ |v - u|) (hna : 0 < na.length) (hnb : 0 < nb.length) (ua : na[na.length - 1] = ub) (ub' : nb[nb.length - 1] = ub) :
    ∀ (fuel : Nat) {ia ib c : Nat} {nodes : List K}, MInv na nb nodes ia ib c → na.length + nb.length < fuel + ia + ib →
    ∃ nodes' c', mergeLoop eps ub na nb fuel ia ib c nodes = .ok (nodes', c') ∧ (nodes'.take c').Pairwise (· < ·) ∧ ∀ x, x ∈ nodes'.take c' ↔ x ∈ na ∨ x ∈ nb
  | 0, ia, ib, c, nodes, h, hf => absurd hf (by have := h.leA; have := h.leB; omega)
  | fuel + 1, ia, ib, c, nodes, h, hf => by
    have p := h.pos; have l := h.le; have i1 := h.leA; have i2 := h.leB; have hl := h.len
    have hmono : ∀ {l : List K} (_ : l.Pairwise (· < ·)) {i j : Nat} (hi : i < l.length) (hj : j < l.length), i < j → l[i] < l[j] :=
      fun hl i j hi hj hij => List.pairwise_iff_getElem.1 hl i j hi hj hij
    have hlast : nodes[c - 1]'(by omega) ∈ nodes.take c := mem_take_iff.2 ⟨c - 1, by omega, by omega, rfl⟩
    have hbig : ∀ y ∈ nodes.take c, y ≤ nodes[c - 1]'(by omega) := fun y hy => by
      obtain ⟨i, hi, hic, rfl⟩ := mem_take_iff.1 hy
      rcases Nat.lt_or_eq_of_le (show i ≤ c - 1 by omega) with h2 | rfl
      · have := List.pairwise_iff_getElem.1 h.sorted i (c - 1) (by simp; omega) (by simp; omega) h2
        simp only [List.getElem_take] at this
        exact this.le
      · exact le_rfl
    rw [mergeLoop, rd_getElem (show c - 1 < nodes.length by omega), bind_ok]
    by_cases hub : nodes[c - 1]'(by omega) < ub
    · rw [if_pos hub]
      have hia : ia < na.length := by
        by_contra hc
        have : ub ∈ nodes.take c := (h.mem ub).2 (.inl (mem_take_iff.2 ⟨na.length - 1, by omega, by omega, ua⟩))
        exact absurd hub (not_lt.2 (hbig _ this))
      have hib : ib < nb.length := by
        by_contra hc
        have : ub ∈ nodes.take c := (h.mem ub).2 (.inr (mem_take_iff.2 ⟨nb.length - 1, by omega, by omega, ub'⟩))
        exact absurd hub (not_lt.2 (hbig _ this))
      rw [rd_getElem hia, bind_ok, rd_getElem hib, bind_ok]
      have hc : c < nodes.length := by omega
      rcases lt_trichotomy na[ia] nb[ib] with hlt | heq | hgt
      · have hne : ¬ |nb[ib] - na[ia]| < eps := not_lt.2 ((hsep _ (List.getElem_mem _) _ (List.getElem_mem _)).resolve_left hlt.ne)
        rw [if_pos hlt.le, wr_ok _ hc, bind_ok]
        dsimp only
        rw [if_neg hne, if_neg (not_lt.2 hlt.le), if_pos hlt]
        refine mergeLoop_ok sa sb h0 hsep hna hnb ua ub' fuel (h.push (by omega) le_rfl (by omega) (by omega) i2 hc (fun x => ?_) (fun y hy => h.lowA y hy ia hia le_rfl)
          (fun i hi hle => hmono sa hia hi (by omega)) (fun i hi hle => ?_)) (by omega)
        · rw [take_succ_mem hia]; tauto
        · rcases Nat.lt_or_eq_of_le hle with h2 | rfl
          · exact hlt.trans (hmono sb hib hi h2)
          · exact hlt
      · rw [if_pos heq.le, wr_ok _ hc, bind_ok]
        dsimp only
        rw [if_pos (by rw [heq, sub_self, abs_zero]; exact h0)]
        refine mergeLoop_ok sa sb h0 hsep hna hnb ua ub' fuel (h.push (by omega) (by omega) (by omega) (by omega) (by omega) hc (fun x => ?_) (fun y hy => h.lowA y hy ia hia le_rfl)
          (fun i hi hle => hmono sa hia hi (by omega)) (fun i hi hle => by rw [heq]; exact hmono sb hib hi (by omega))) (by omega)
        rw [take_succ_mem hia, take_succ_mem hib, ← heq]; tauto
      · have hne : ¬ |nb[ib] - na[ia]| < eps := not_lt.2 ((hsep _ (List.getElem_mem _) _ (List.getElem_mem _)).resolve_left hgt.ne')
        rw [if_neg (not_le.2 hgt), if_pos hgt, wr_ok _ hc, bind_ok]
        dsimp only
        rw [if_neg hne, if_pos hgt]
        refine mergeLoop_ok sa sb h0 hsep hna hnb ua ub' fuel (h.push le_rfl (by omega) (by omega) i1 (by omega) hc (fun x => ?_) (fun y hy => h.lowB y hy ib hib le_rfl)
          (fun i hi hle => ?_) (fun i hi hle => hmono sb hib hi (by omega))) (by omega)
        · rw [take_succ_mem hib]; tauto
        · rcases Nat.lt_or_eq_of_le hle with h2 | rfl
          · exact hgt.trans (hmono sa hia hi h2)
          · exact hgt
    · rw [if_neg hub]
      have hia : ia = na.length := by
        by_contra hc
        have := h.lowA _ hlast (na.length - 1) (by omega) (by omega)
        rw [ua] at this
        exact hub this
      have hib : ib = nb.length := by
        by_contra hc
        have := h.lowB _ hlast (nb.length - 1) (by omega) (by omega)
        rw [ub'] at this
        exact hub this
      refine ⟨nodes, c, rfl, h.sorted, fun x => ?_⟩
      rw [h.mem, hia, hib, List.take_length, List.take_length]

/-- C77: the common refinement of two partitions of one interval whose nodes are equal or at least `eps` apart is the sorted union of the nodes. -/
theorem matchNodes_union {eps : K} {na nb : List K} (sa : na.Pairwise (· < ·)) (sb : nb.Pairwise (· < ·)) (h0 : 0 < eps)
    (hsep : ∀ u ∈ na, ∀ v ∈ nb, u = v ∨ eps ≤ |v - u|) (hna : 2 ≤ na.length) (hnb : 2 ≤ nb.length) (hl : na[0] = nb[0]) (hu : na[na.length - 1] = nb[nb.length - 1]) :
    ∃ ns, matchNodes eps na nb = .ok ns ∧ ns.Pairwise (· < ·) ∧ ∀ x, x ∈ ns ↔ x ∈ na ∨ x ∈ nb := by
  have hmono : ∀ {l : List K} (_ : l.Pairwise (· < ·)) {i j : Nat} (hi : i < l.length) (hj : j < l.length), i < j → l[i] < l[j] :=
    fun hl i j hi hj hij => List.pairwise_iff_getElem.1 hl i j hi hj hij
  have t1 : ((List.replicate (na.length + nb.length) (0 : K)).set 0 na[0]).take 1 = [na[0]] := by
    rw [List.take_succ_eq_append_getElem (by simp; omega)]; simp
  have ta : na.take 1 = [na[0]] := by rw [List.take_succ_eq_append_getElem (by omega)]; simp
  have tb : nb.take 1 = [na[0]] := by rw [List.take_succ_eq_append_getElem (by omega), hl]; simp
  obtain ⟨ns, c, e, h1, h2⟩ := mergeLoop_ok (ub := na[na.length - 1]) sa sb h0 hsep (by omega) (by omega) rfl hu.symm (na.length + nb.length + 1) (ia := 1) (ib := 1) (c := 1)
    (nodes := (List.replicate (na.length + nb.length) (0 : K)).set 0 na[0])
    ⟨le_rfl, by omega, by omega, by omega, by simp, by rw [t1]; simp, fun x => by rw [t1, ta, tb]; simp,
      fun y hy i hi hle => by
        rw [t1, List.mem_singleton] at hy
        rw [hy]; exact hmono sa (by omega) hi (by omega),
      fun y hy i hi hle => by
        rw [t1, List.mem_singleton] at hy
        rw [hy, hl]; exact hmono sb (by omega) hi (by omega)⟩ (by omega)
  refine ⟨ns.take c, ?_, h1, h2⟩
  rw [matchNodes, rd_getElem (show 0 < na.length by omega), bind_ok, rd_getElem (show 0 < nb.length by omega), bind_ok, rd_getElem (show na.length - 1 < na.length by omega), bind_ok,
    rd_getElem (show nb.length - 1 < nb.length by omega), bind_ok]
  dsimp only
  rw [← hl, ← hu, if_neg (lt_irrefl _), if_neg (lt_irrefl _), wr_ok _ (by simp; omega), bind_ok, skipLow, rd_getElem (show 1 < na.length by omega), bind_ok,
    if_neg (not_lt.2 (hmono sa (by omega) (by omega) (by omega)).le), pure_eq_ok, bind_ok, skipLow, rd_getElem (show 1 < nb.length by omega), bind_ok,
    if_neg (not_lt.2 (by rw [hl]; exact (hmono sb (by omega) (by omega) (by omega)).le)), pure_eq_ok, bind_ok, e, bind_ok, pure_eq_ok]

/-- C77 fails when the two domains differ: the loop runs past the end of the nodes of the shorter domain. -/
theorem matchNodes_counterexample : matchNodes (1 / 100 : ℚ) [0, 1] [0, 2] = .error .oob := by decide +kernel

/-- C77: two distinct nodes closer than the margin: the larger one disappears from the refinement, although it is a boundary of the second function. -/
theorem matchNodes_close_counterexample : matchNodes (1 / 100 : ℚ) [0, 1, 2] [0, 1 + 1 / 1000, 2] = .ok [0, 1, 2] := by decide +kernel

/-- C77: with different left ends the result starts at the smaller one, but the left end of the other function is skipped, so its first boundary disappears from the refinement. -/
theorem matchNodes_lower_counterexample :
    matchNodes (1 / 100 : ℚ) [0, 3] [1, 2, 3] = .ok [0, 2, 3] ∧ matchNodes (1 / 100 : ℚ) [1, 2, 3] [0, 3] = .ok [0, 2, 3] := by
  decide +kernel

example : matchNodes (1 / 100 : ℚ) [0, 1, 3, 4] [0, 2, 3, 4] = .ok [0, 1, 2, 3, 4] := by decide +kernel

end C3.Pw

/- C61: adding linear elements on different grids. -/
import Verif.Lin.AlgProps
import Mathlib.Tactic.Linarith

set_option linter.unusedSectionVars false

namespace C3.Lin
variable {K : Type} [Field K] [LinearOrder K] [IsStrictOrderedRing K]

/-- Strictly increasing lists, by position. -/
def Inc (xs : List K) : Prop := ∀ i, i + 1 < xs.length → xs.getD i 0 < xs.getD (i + 1) 0

theorem getD_append_last (acc : List K) (v : K) : (acc ++ [v]).getD acc.length 0 = v := by
  simp [List.getD_eq_getElem?_getD]

theorem getD_append_old (acc : List K) (v : K) {i : Nat} (h : i < acc.length) : (acc ++ [v]).getD i 0 = acc.getD i 0 := by
  simp [List.getD_eq_getElem?_getD, List.getElem?_append_left h]

theorem Inc.snoc {acc : List K} {v : K} (h : Inc acc) (hv : ∀ y ∈ acc, y < v) : Inc (acc ++ [v]) := by
  intro i hi
  rw [List.length_append, List.length_singleton] at hi
  by_cases e : i + 1 < acc.length
  · rw [getD_append_old _ _ e, getD_append_old _ _ (by omega)]; exact h i e
  · have : i + 1 = acc.length := by omega
    rw [this, getD_append_last, getD_append_old _ _ (by omega)]
    apply hv
    rw [List.getD_eq_getElem?_getD, List.getElem?_eq_getElem (by omega)]
    exact List.getElem_mem _

/-- The merged grid is strictly increasing and consists of exactly the nodes of both grids. -/
theorem mergeGrid_ok {tol : K} (ht : 0 < tol) {f g : LE K} (hf : f.WF) (hg : g.WF)
    (hs : ∀ i < f.num, ∀ j < g.num, |f.nd i - g.nd j| ≤ tol → f.nd i = g.nd j) :
    ∀ fuel i j acc, i ≤ f.num → j ≤ g.num → f.num - i + (g.num - j) < fuel → Inc acc →
      (∀ y ∈ acc, (i < f.num → y < f.nd i) ∧ (j < g.num → y < g.nd j)) →
      ∃ xs, mergeGrid tol f g fuel i j acc = .ok xs ∧ Inc xs ∧
        ∀ y, y ∈ xs ↔ y ∈ acc ∨ (∃ k, i ≤ k ∧ k < f.num ∧ y = f.nd k) ∨ ∃ k, j ≤ k ∧ k < g.num ∧ y = g.nd k := by
  intro fuel
  induction fuel with
  | zero => intro i j acc _ _ h; omega
  | succ fuel ih =>
    intro i j acc hi hj hfu hinc hacc
    rw [mergeGrid]
    by_cases h0 : i < f.num ∨ j < g.num
    swap
    · rw [if_neg h0]
      refine ⟨acc, rfl, hinc, fun y => ⟨.inl, ?_⟩⟩
      rintro (h | ⟨k, _, _, _⟩ | ⟨k, _, _, _⟩)
      · exact h
      · omega
      · omega
    rw [if_pos h0]
    -- the three kinds of step
    have stepF : i < f.num → (j < g.num → f.nd i < g.nd j) →
        ∃ xs, mergeGrid tol f g fuel (i + 1) j (acc ++ [f.nd i]) = .ok xs ∧ Inc xs ∧
        ∀ y, y ∈ xs ↔ y ∈ acc ∨ (∃ k, i ≤ k ∧ k < f.num ∧ y = f.nd k) ∨ ∃ k, j ≤ k ∧ k < g.num ∧ y = g.nd k := by
      intro hif hlt
      obtain ⟨xs, h1, h2, h3⟩ := ih (i + 1) j (acc ++ [f.nd i]) hif hj (by omega)
        (hinc.snoc fun y hy => (hacc y hy).1 hif) (by
          intro y hy
          rcases List.mem_append.1 hy with hy | hy
          · exact ⟨fun h => ((hacc y hy).1 hif).trans (hf.inc i h), (hacc y hy).2⟩
          · rw [List.mem_singleton.1 hy]; exact ⟨fun h => hf.inc i h, hlt⟩)
      refine ⟨xs, h1, h2, fun y => ?_⟩
      rw [h3, List.mem_append, List.mem_singleton]
      constructor
      · rintro ((h | h) | ⟨k, a, b, c⟩ | h)
        · exact .inl h
        · exact .inr (.inl ⟨i, le_rfl, hif, h⟩)
        · exact .inr (.inl ⟨k, by omega, b, c⟩)
        · exact .inr (.inr h)
      · rintro (h | ⟨k, a, b, c⟩ | h)
        · exact .inl (.inl h)
        · by_cases e : k = i
          · exact .inl (.inr (e ▸ c))
          · exact .inr (.inl ⟨k, by omega, b, c⟩)
        · exact .inr (.inr h)
    have stepG : j < g.num → (i < f.num → g.nd j < f.nd i) →
        ∃ xs, mergeGrid tol f g fuel i (j + 1) (acc ++ [g.nd j]) = .ok xs ∧ Inc xs ∧
        ∀ y, y ∈ xs ↔ y ∈ acc ∨ (∃ k, i ≤ k ∧ k < f.num ∧ y = f.nd k) ∨ ∃ k, j ≤ k ∧ k < g.num ∧ y = g.nd k := by
      intro hjg hlt
      obtain ⟨xs, h1, h2, h3⟩ := ih i (j + 1) (acc ++ [g.nd j]) hi hjg (by omega)
        (hinc.snoc fun y hy => (hacc y hy).2 hjg) (by
          intro y hy
          rcases List.mem_append.1 hy with hy | hy
          · exact ⟨(hacc y hy).1, fun h => ((hacc y hy).2 hjg).trans (hg.inc j h)⟩
          · rw [List.mem_singleton.1 hy]; exact ⟨hlt, fun h => hg.inc j h⟩)
      refine ⟨xs, h1, h2, fun y => ?_⟩
      rw [h3, List.mem_append, List.mem_singleton]
      constructor
      · rintro ((h | h) | h | ⟨k, a, b, c⟩)
        · exact .inl h
        · exact .inr (.inr ⟨j, le_rfl, hjg, h⟩)
        · exact .inr (.inl h)
        · exact .inr (.inr ⟨k, by omega, b, c⟩)
      · rintro (h | h | ⟨k, a, b, c⟩)
        · exact .inl (.inl h)
        · exact .inr (.inl h)
        · by_cases e : k = j
          · exact .inl (.inr (e ▸ c))
          · exact .inr (.inr ⟨k, by omega, b, c⟩)
    by_cases h1 : i = f.num
    · rw [if_pos h1, LE.rd_nd hg (by omega), bind_ok]
      exact stepG (by omega) (fun h => by omega)
    rw [if_neg h1]
    by_cases h2 : j = g.num
    · rw [if_pos h2, LE.rd_nd hf (by omega), bind_ok]
      exact stepF (by omega) (fun h => by omega)
    rw [if_neg h2, LE.rd_nd hf (by omega), bind_ok, LE.rd_nd hg (by omega), bind_ok]
    have hif : i < f.num := by omega
    have hjg : j < g.num := by omega
    by_cases h3 : |f.nd i - g.nd j| < tol
    · rw [if_pos h3]
      have he := hs i hif j hjg h3.le
      obtain ⟨xs, p1, p2, p3⟩ := ih (i + 1) (j + 1) (acc ++ [f.nd i]) hif hjg (by omega)
        (hinc.snoc fun y hy => (hacc y hy).1 hif) (by
          intro y hy
          rcases List.mem_append.1 hy with hy | hy
          · exact ⟨fun h => ((hacc y hy).1 hif).trans (hf.inc i h), fun h => ((hacc y hy).2 hjg).trans (hg.inc j h)⟩
          · rw [List.mem_singleton.1 hy]; exact ⟨fun h => hf.inc i h, fun h => he ▸ hg.inc j h⟩)
      refine ⟨xs, p1, p2, fun y => ?_⟩
      rw [p3, List.mem_append, List.mem_singleton]
      constructor
      · rintro ((h | h) | ⟨k, a, b, c⟩ | ⟨k, a, b, c⟩)
        · exact .inl h
        · exact .inr (.inl ⟨i, le_rfl, hif, h⟩)
        · exact .inr (.inl ⟨k, by omega, b, c⟩)
        · exact .inr (.inr ⟨k, by omega, b, c⟩)
      · rintro (h | ⟨k, a, b, c⟩ | ⟨k, a, b, c⟩)
        · exact .inl (.inl h)
        · by_cases e : k = i
          · exact .inl (.inr (e ▸ c))
          · exact .inr (.inl ⟨k, by omega, b, c⟩)
        · by_cases e : k = j
          · exact .inl (.inr (by rw [c, e, he]))
          · exact .inr (.inr ⟨k, by omega, b, c⟩)
    · rw [if_neg h3]
      have hne : f.nd i ≠ g.nd j := by
        intro e; rw [e, sub_self, abs_zero] at h3; exact h3 ht
      by_cases h4 : f.nd i < g.nd j
      · rw [if_pos h4]; exact stepF hif (fun _ => h4)
      · rw [if_neg h4, if_pos (lt_of_le_of_ne (not_lt.1 h4) hne.symm)]
        exact stepG hjg (fun _ => lt_of_le_of_ne (not_lt.1 h4) hne.symm)

/-- Between two neighbouring points of a refinement of the grid, the interpolant is the chord through its own values. -/
theorem pl_refine {f : LE K} (hf : f.WF) {u w y : K} (huw : u < w) (hl : f.nd 0 ≤ u) (hh : w ≤ f.nd (f.num - 1))
    (hno : ∀ k < f.num, ¬ (u < f.nd k ∧ f.nd k < w)) (h1 : u ≤ y) (h2 : y ≤ w) :
    pl f.nodes f.coeff y =
      pl f.nodes f.coeff u + (pl f.nodes f.coeff w - pl f.nodes f.coeff u) / (w - u) * (y - u) := by
  have m1 : u < (u + w) / 2 := by linarith
  have m2 : (u + w) / 2 < w := by linarith
  obtain ⟨i, p1, p2, p3⟩ := seg_exists hf (x := (u + w) / 2) (by linarith) (by linarith)
  have a1 : f.nd i ≤ u := by
    by_contra h; exact hno i (by omega) ⟨not_le.1 h, p2.trans_lt m2⟩
  have a2 : w ≤ f.nd (i + 1) := by
    by_contra h; exact hno (i + 1) p1 ⟨m1.trans_le p3, not_le.1 h⟩
  have hd := (sub_pos.2 (hf.inc i p1)).ne'
  have hw := (sub_pos.2 huw).ne'
  rw [pl_seg hf p1 (a1.trans h1) (h2.trans a2), pl_seg hf p1 a1 (by linarith), pl_seg hf p1 (by linarith) a2]
  field_simp
  ring

/-- **C61** Adding a multiple of one expansion to another on a different grid with the same end points: the result is a
well-formed expansion whose interpolant is the pointwise combination, at every point. The nodes of both grids must be equal or
further apart than the tolerance. Missing: different end points, where `axpy_ends_counterexample` refutes it. -/
theorem axpyMerged_value_partial {tol a : K} (ht : 0 < tol) {f g : LE K} (hf : f.WF) (hg : g.WF)
    (hsf : f.Sep tol) (hsg : g.Sep tol)
    (hs : ∀ i < f.num, ∀ j < g.num, |f.nd i - g.nd j| ≤ tol → f.nd i = g.nd j)
    (h0 : f.nd 0 = g.nd 0) (h1 : f.nd (f.num - 1) = g.nd (g.num - 1)) :
    ∃ h, axpyMerged tol a f g = .ok h ∧ h.WF ∧
      (∀ y, (∃ k < h.num, y = h.nd k) ↔ (∃ k < f.num, y = f.nd k) ∨ ∃ k < g.num, y = g.nd k) ∧
      ∀ x, pl h.nodes h.coeff x = a * pl f.nodes f.coeff x + pl g.nodes g.coeff x := by
  have twof := hf.two
  have twog := hg.two
  obtain ⟨xs, p1, p2, p3⟩ := mergeGrid_ok ht hf hg hs (f.num + g.num + 1) 0 0 [] (Nat.zero_le _) (Nat.zero_le _) (by omega)
    (fun i hi => by simp at hi) (fun y hy => by simp at hy)
  have mem : ∀ y, y ∈ xs ↔ (∃ k < f.num, y = f.nd k) ∨ ∃ k < g.num, y = g.nd k := by
    intro y
    rw [p3]
    constructor
    · rintro (h | ⟨k, _, h⟩ | ⟨k, _, h⟩)
      · simp at h
      · exact .inl ⟨k, h⟩
      · exact .inr ⟨k, h⟩
    · rintro (⟨k, h⟩ | ⟨k, h⟩)
      · exact .inr (.inl ⟨k, Nat.zero_le _, h⟩)
      · exact .inr (.inr ⟨k, Nat.zero_le _, h⟩)
  have pos : ∀ y, y ∈ xs ↔ ∃ k < xs.length, y = xs.getD k 0 := by
    intro y
    rw [List.mem_iff_getElem]
    constructor
    · rintro ⟨k, hk, h⟩; exact ⟨k, hk, by simp [List.getD_eq_getElem?_getD, List.getElem?_eq_getElem hk, h]⟩
    · rintro ⟨k, hk, h⟩; exact ⟨k, hk, by rw [h]; simp [List.getD_eq_getElem?_getD, List.getElem?_eq_getElem hk]⟩
  -- length
  have big : 2 ≤ xs.length := by
    obtain ⟨k, hk, e⟩ := (pos _).1 ((mem (f.nd 0)).2 (.inl ⟨0, by omega, rfl⟩))
    obtain ⟨l, hl, e'⟩ := (pos _).1 ((mem (f.nd 1)).2 (.inl ⟨1, by omega, rfl⟩))
    have : k ≠ l := by
      intro h; rw [h, ← e'] at e; exact absurd e (hf.inc 0 (by omega)).ne
    omega
  have wx : (LE.mk xs.length xs xs).WF := ⟨rfl, rfl, big, p2⟩
  -- not longer than the two grids together
  have small : xs.length ≤ f.num + g.num := by
    have hinj : Function.Injective (fun k : Fin xs.length => xs.getD k 0) := by
      intro k l h
      rcases lt_trichotomy k.1 l.1 with hh | hh | hh
      · exact absurd h (wx.lt hh l.2).ne
      · exact Fin.ext hh
      · exact absurd h (wx.lt hh k.2).ne'
    have hch : ∀ k : Fin xs.length, ∃ m : Fin (f.num + g.num), xs.getD k 0 = if m.1 < f.num then f.nd m else g.nd (m.1 - f.num) := by
      intro k
      rcases (mem _).1 ((pos _).2 ⟨k.1, k.2, rfl⟩) with ⟨m, hm, e⟩ | ⟨m, hm, e⟩
      · exact ⟨⟨m, by omega⟩, by rw [if_pos hm]; exact e⟩
      · exact ⟨⟨f.num + m, by omega⟩, by rw [if_neg (by simp)]; simp only [Nat.add_sub_cancel_left]; exact e⟩
    choose m hm using hch
    have : Function.Injective m := by
      intro k l h
      apply hinj
      show xs.getD k 0 = xs.getD l 0
      rw [hm k, hm l, h]
    simpa using Fintype.card_le_of_injective m this
  -- values at the merged nodes
  have evf : ∀ k < xs.length, eval tol f (xs.getD k 0) = .ok (pl f.nodes f.coeff (xs.getD k 0)) := by
    intro k hk
    refine eval_value_partial hf ht.le fun i hi h => ?_
    rcases (mem _).1 ((pos _).2 ⟨k, hk, rfl⟩) with ⟨m, hm, e⟩ | ⟨m, hm, e⟩
    · rw [e] at h ⊢; rw [hsf m hm i hi h]
    · rw [e] at h ⊢; rw [abs_sub_comm] at h; exact (hs i hi m hm h).symm
  have evg : ∀ k < xs.length, eval tol g (xs.getD k 0) = .ok (pl g.nodes g.coeff (xs.getD k 0)) := by
    intro k hk
    refine eval_value_partial hg ht.le fun i hi h => ?_
    rcases (mem _).1 ((pos _).2 ⟨k, hk, rfl⟩) with ⟨m, hm, e⟩ | ⟨m, hm, e⟩
    · rw [e] at h ⊢; exact hs m hm i hi h
    · rw [e] at h ⊢; rw [hsg m hm i hi h]
  have fill := forN_fill (n := xs.length) (off := 0) (a := List.replicate (f.num + g.num) (0 : K))
    (body := fun ii c => do
      let xi ← rd xs ii
      let u ← eval tol f xi
      let w ← eval tol g xi
      wr c ii (a * u + w)) (fun k => a * pl f.nodes f.coeff (xs.getD k 0) + pl g.nodes g.coeff (xs.getD k 0)) (by simpa using small) (by
      intro i hi b _
      rw [rd_getD 0 hi, bind_ok, evf i hi, bind_ok, evg i hi, bind_ok, Nat.zero_add])
  have htake : ((List.replicate (f.num + g.num) (0 : K)).take 0 ++
      (List.range xs.length).map (fun k => a * pl f.nodes f.coeff (xs.getD k 0) + pl g.nodes g.coeff (xs.getD k 0)) ++
      (List.replicate (f.num + g.num) (0 : K)).drop (0 + xs.length)).take xs.length =
      (List.range xs.length).map (fun k => a * pl f.nodes f.coeff (xs.getD k 0) + pl g.nodes g.coeff (xs.getD k 0)) := by
    rw [List.take_zero, List.nil_append, List.take_append_of_le_length (by simp), List.take_of_length_le (by simp)]
  have hwf : (LE.mk xs.length xs ((List.range xs.length).map
      (fun k => a * pl f.nodes f.coeff (xs.getD k 0) + pl g.nodes g.coeff (xs.getD k 0)))).WF := WF.swap wx (by simp)
  refine ⟨_, by rw [axpyMerged, p1, bind_ok, fill, bind_ok, htake, pure_eq_ok], hwf, ?_, fun x => ?_⟩
  · intro y
    rw [← mem, pos]; rfl
  -- end points
  have first : xs.getD 0 0 = f.nd 0 := by
    apply le_antisymm
    · obtain ⟨k, hk, e⟩ := (pos _).1 ((mem (f.nd 0)).2 (.inl ⟨0, by omega, rfl⟩))
      rw [e]; exact wx.le (Nat.zero_le k) hk
    · rcases (mem _).1 ((pos _).2 ⟨0, by omega, rfl⟩) with ⟨m, hm, e⟩ | ⟨m, hm, e⟩
      · rw [e]; exact hf.le (Nat.zero_le m) hm
      · rw [e, h0]; exact hg.le (Nat.zero_le m) hm
  have last : xs.getD (xs.length - 1) 0 = f.nd (f.num - 1) := by
    apply le_antisymm
    · rcases (mem _).1 ((pos _).2 ⟨xs.length - 1, by omega, rfl⟩) with ⟨m, hm, e⟩ | ⟨m, hm, e⟩
      · rw [e]; exact hf.le (by omega) (by omega)
      · rw [e, h1]; exact hg.le (by omega) (by omega)
    · obtain ⟨k, hk, e⟩ := (pos _).1 ((mem (f.nd (f.num - 1))).2 (.inl ⟨f.num - 1, by omega, rfl⟩))
      rw [e]; exact wx.le (show k ≤ xs.length - 1 by omega) (show xs.length - 1 < xs.length by omega)
  rcases tri (LE.mk xs.length xs ((List.range xs.length).map
      (fun k => a * pl f.nodes f.coeff (xs.getD k 0) + pl g.nodes g.coeff (xs.getD k 0)))) x with h | ⟨hl, hh⟩
  · have h' : x < f.nd 0 ∨ f.nd (f.num - 1) < x := by
      rcases h with h | h
      · exact .inl (by rw [← first]; exact h)
      · exact .inr (by rw [← last]; exact h)
    rw [pl_out hwf h, pl_out hf h', pl_out hg (by rw [← h0, ← h1]; exact h')]
    ring
  · obtain ⟨k, hk, q1, q2⟩ := seg_exists hwf hl hh
    have hk' : k + 1 < xs.length := hk
    have hu : xs.getD k 0 < xs.getD (k + 1) 0 := p2 k hk'
    have q1' : xs.getD k 0 ≤ x := q1
    have q2' : x ≤ xs.getD (k + 1) 0 := q2
    have lo : f.nd 0 ≤ xs.getD k 0 := by rw [← first]; exact wx.le (Nat.zero_le k) (by show k < xs.length; omega)
    have hi : xs.getD (k + 1) 0 ≤ f.nd (f.num - 1) := by
      rw [← last]; exact wx.le (show k + 1 ≤ xs.length - 1 by omega) (show xs.length - 1 < xs.length by omega)
    have gap : ∀ y ∈ xs, ¬ (xs.getD k 0 < y ∧ y < xs.getD (k + 1) 0) := by
      rintro y hy ⟨r1, r2⟩
      obtain ⟨m, hm, e⟩ := (pos y).1 hy
      rw [e] at r1 r2
      have c1 : k < m := by
        by_contra hc; exact absurd r1 (not_lt.2 (wx.le (show m ≤ k by omega) (show k < xs.length by omega)))
      have c2 : m < k + 1 := by
        by_contra hc; exact absurd r2 (not_lt.2 (wx.le (show k + 1 ≤ m by omega) hm))
      omega
    have rf := pl_refine hf hu lo hi (fun m hm => gap _ ((mem _).2 (.inl ⟨m, hm, rfl⟩))) q1' q2'
    have rg := pl_refine hg hu (by rw [← h0]; exact lo) (by rw [← h1]; exact hi)
      (fun m hm => gap _ ((mem _).2 (.inr ⟨m, hm, rfl⟩))) q1' q2'
    rw [pl_seg hwf hk q1 q2, rf, rg]
    show ((List.range xs.length).map _).getD k 0 + (((List.range xs.length).map _).getD (k + 1) 0 -
      ((List.range xs.length).map _).getD k 0) / (xs.getD (k + 1) 0 - xs.getD k 0) * (x - xs.getD k 0) = _
    rw [map_range_getD _ (by omega), map_range_getD _ hk']
    have := (sub_pos.2 hu).ne'
    field_simp
    ring

/-- **C61** The same through the entry point, whenever the grids are told apart. -/
theorem axpy_different_partial {tol a : K} (ht : 0 < tol) {f g : LE K} (hf : f.WF) (hg : g.WF)
    (hsf : f.Sep tol) (hsg : g.Sep tol)
    (hs : ∀ i < f.num, ∀ j < g.num, |f.nd i - g.nd j| ≤ tol → f.nd i = g.nd j)
    (h0 : f.nd 0 = g.nd 0) (h1 : f.nd (f.num - 1) = g.nd (g.num - 1)) :
    ∃ h, axpy tol a f g = .ok h ∧ h.WF ∧
      ∀ x, pl h.nodes h.coeff x = a * pl f.nodes f.coeff x + pl g.nodes g.coeff x := by
  obtain ⟨h, q1, q2, _, q4⟩ := axpyMerged_value_partial (a := a) ht hf hg hsf hsg hs h0 h1
  by_cases hn : f.num = g.num
  · by_cases hc : ∀ i < f.num, |f.nd i - g.nd i| ≤ tol
    · -- same grid up to the tolerance, hence equal
      have hnodes : f.nodes = g.nodes := by
        apply List.ext_getElem (by rw [hf.hn, hg.hn, hn])
        intro i hi hi'
        have e := hs i (by rw [← hf.hn]; exact hi) i (by rw [← hg.hn]; exact hi') (hc i (by rw [← hf.hn]; exact hi))
        simpa [LE.nd, List.getD_eq_getElem?_getD, List.getElem?_eq_getElem hi, List.getElem?_eq_getElem hi'] using e
      obtain ⟨h, r1, r2, r3, r4⟩ := axpy_value (tol := tol) ht.le hf hg hnodes a
      obtain ⟨h', r1', _, _, r4'⟩ := axpy_value (tol := (0 : K)) le_rfl hf hg hnodes a
      have same : h = h' := by
        have s1 : sdiscp tol f g = .ok true := by rw [sdiscp_ok hf hg hn, decide_eq_true hc]
        have s2 : sdiscp 0 f g = .ok true := by
          rw [sdiscp_ok hf hg hn, decide_eq_true fun i _ => by rw [LE.nd, LE.nd, hnodes, sub_self, abs_zero]]
        rw [axpy, s1, bind_ok, if_pos rfl] at r1
        rw [axpy, s2, bind_ok, if_pos rfl] at r1'
        rw [r1] at r1'; injection r1'
      subst same
      refine ⟨h, r1, r2, fun x => ?_⟩
      obtain ⟨u, v, e1, e2, e3⟩ := r4' x
      rw [eval_value_exact hf] at e1
      rw [eval_value_exact hg] at e2
      rw [eval_value_exact r2] at e3
      injection e1 with e1; injection e2 with e2; injection e3 with e3
      rw [e3, e1, e2]
    · refine ⟨h, ?_, q2, q4⟩
      rw [axpy, sdiscp_ok hf hg hn, decide_eq_false hc, bind_ok, if_neg (by decide), q1]
  · refine ⟨h, ?_, q2, q4⟩
    rw [axpy, sdiscp, if_pos hn, bind_ok, if_neg (by decide), q1]

/-- **C61** With different end points the sum is not pointwise: beyond the range of the first function, where it evaluates to
zero, the result still ramps down. -/
theorem axpy_ends_counterexample :
    ∃ h : LE ℚ, axpy (1 / 10 ^ 15) 1 ⟨2, [0, 1], [1, 1]⟩ ⟨2, [0, 2], [0, 0]⟩ = .ok h ∧ eval (1 / 10 ^ 15) h (3 / 2) = .ok (1 / 2) ∧
      eval (1 / 10 ^ 15) (⟨2, [0, 1], [1, 1]⟩ : LE ℚ) (3 / 2) = .ok 0 ∧
      eval (1 / 10 ^ 15) (⟨2, [0, 2], [0, 0]⟩ : LE ℚ) (3 / 2) = .ok 0 :=
  ⟨⟨3, [0, 1, 2], [1, 1, 0]⟩, by decide +kernel, by decide +kernel, by decide +kernel, by decide +kernel⟩

theorem exWFb : (LE.mk 2 [0, 3] [4, 1] : LE ℚ).WF := ⟨rfl, rfl, by decide, by
  intro i hi
  have : i = 0 := by dsimp at hi; omega
  subst this; norm_num [LE.nd]⟩

example := axpy_different_partial (tol := (1 / 10 : ℚ)) (a := 2) (by norm_num) exWF exWFb (by
  intro i hi j hj h
  have h1 : i = 0 ∨ i = 1 ∨ i = 2 := by dsimp at hi; omega
  have h2 : j = 0 ∨ j = 1 ∨ j = 2 := by dsimp at hj; omega
  rcases h1 with rfl | rfl | rfl <;> rcases h2 with rfl | rfl | rfl <;> first | rfl | (exfalso; norm_num [LE.nd, abs_le] at h)) (by
  intro i hi j hj h
  have h1 : i = 0 ∨ i = 1 := by dsimp at hi; omega
  have h2 : j = 0 ∨ j = 1 := by dsimp at hj; omega
  rcases h1 with rfl | rfl <;> rcases h2 with rfl | rfl <;> first | rfl | (exfalso; norm_num [LE.nd, abs_le] at h)) (by
  intro i hi j hj h
  have h1 : i = 0 ∨ i = 1 ∨ i = 2 := by dsimp at hi; omega
  have h2 : j = 0 ∨ j = 1 := by dsimp at hj; omega
  rcases h1 with rfl | rfl | rfl <;> rcases h2 with rfl | rfl <;> first | rfl | (exfalso; norm_num [LE.nd, abs_le] at h)) (by norm_num [LE.nd]) (by norm_num [LE.nd])

end C3.Lin

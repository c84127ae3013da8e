/- Matching two piecewise polynomials on a common refinement, and the arithmetic built on it (property C77). -/
import Verif.Pw.FinerGrid

set_option linter.unusedSectionVars false

namespace C3.Pw
open MeasureTheory
open C3.Poly (Ope legFam OnInt Rule PT IsGaussLeg)

/-- The nodes of the partition of a tree. -/
def bds (p : Pw ℝ) (h : p.Full) : List ℝ := (p.leaves.head (leaves_ne h)).lb :: p.leaves.map (·.ub)

theorem bds_sorted {p : Pw ℝ} (h : p.Ok) : (bds p h.full).Pairwise (· < ·) := by
  rw [bds, List.pairwise_cons]
  refine ⟨fun x hx => ?_, ?_⟩
  · obtain ⟨f, hf, rfl⟩ := List.mem_map.1 hx
    obtain ⟨i, hi, rfl⟩ := List.getElem_of_mem hf
    have h0 := h.consec.2 _ (List.head_mem (leaves_ne h.full))
    by_cases c : i = 0
    · subst c; rw [List.head_eq_getElem] at h0 ⊢; exact h0
    · have h1 := List.pairwise_iff_getElem.1 h.consec.pairwise 0 i (by omega) hi (by omega)
      rw [List.head_eq_getElem] at h0 ⊢
      exact h0.trans h1
  · rw [List.pairwise_map]; exact h.consec.pairwise

/-- Two expansions on the same interval. -/
structure Pair (f g : Ope ℝ) : Prop where
  wf : f.WF
  wg : g.WF
  lf : LegLeaf f
  lg : LegLeaf g
  lb : f.lb = g.lb
  ub : f.ub = g.ub
  kf : f.krist = false
  kg : g.krist = false

theorem Pair.map {f g : Ope ℝ} (h : Pair f g) : f.map = g.map := h.lf.map_eq h.lg h.lb h.ub

theorem LegLeaf.same {f g : Ope ℝ} (h : LegLeaf f) (s : Same f g) : LegLeaf g :=
  ⟨s.fam.trans h.fam, ⟨by rw [s.lb, s.ub]; exact h.int.lt, by rw [s.map, s.lb]; exact h.int.lo, by rw [s.map, s.ub]; exact h.int.hi, by rw [s.map]; exact h.int.inv⟩,
    by rw [s.map]; exact h.inv⟩

theorem flat_node {bs : List (Pw ℝ)} (h : (Pw.node bs).isFlat = true) : ∃ ls : List (Ope ℝ), bs = ls.map Pw.leaf := by
  rw [Pw.isFlat] at h
  induction bs with
  | nil => exact ⟨[], rfl⟩
  | cons b bs ih =>
    rw [List.all_cons, Bool.and_eq_true] at h
    obtain ⟨ls, rfl⟩ := ih h.2
    cases b with
    | leaf f => exact ⟨f :: ls, rfl⟩
    | node cs => cases h.1

theorem same_trans : ∀ {l m n : List (Ope ℝ)}, List.Forall₂ Same l m → List.Forall₂ Same m n → List.Forall₂ Same l n
  | _, _, _, .nil, .nil => .nil
  | _, _, _, .cons h1 t1, .cons h2 t2 =>
    .cons ⟨h2.wf, h2.krist.trans h1.krist, h2.lb.trans h1.lb, h2.ub.trans h1.ub, h2.fam.trans h1.fam, h2.map.trans h1.map⟩ (same_trans t1 t2)

/-- A flattened copy. -/
theorem flatCopy {p : Pw ℝ} (h : p.Ok) : ∃ q q', p.copy = .ok q ∧ q.flatten = .ok q' ∧ List.Forall₂ Same p.leaves q'.leaves ∧
    (∀ t x, pieceVal t q'.leaves x = pieceVal t p.leaves x) ∧ ((p.isLeaf = true ∧ ∃ f, q' = .leaf f) ∨ (p.isLeaf = false ∧ ∃ ls : List (Ope ℝ), q' = .node (ls.map Pw.leaf))) := by
  obtain ⟨q, e, hr, hf, hlf, -⟩ := mapC_ok (op := C3.Poly.copy) (R := fun f r => Same f r ∧ ∀ x, r.val x = f.val x) (p := p) (fun f hf => copy_same (h.wf f hf))
  have hs : List.Forall₂ Same p.leaves q.leaves := hr.imp fun _ _ h => h.1
  have hq := h.of_rel (hf h.full) hs
  obtain ⟨q', e', -, hfl, hs', hv⟩ := flatten_value hq
  refine ⟨q, q', e, e', ?_, fun t x => ?_, ?_⟩
  · exact same_trans hs hs'
  · rw [hv]; exact pieceVal_rel (R := fun u v => v = u) rfl (hr.imp fun _ _ h => ⟨h.1.ub, h.2 x⟩)
  · cases p with
    | leaf f =>
      cases q with
      | node bs => cases hlf
      | leaf g => exact .inl ⟨rfl, g, (Except.ok.inj e').symm⟩
    | node bs =>
      cases q with
      | leaf g => cases hlf
      | node cs =>
        refine .inr ⟨rfl, ?_⟩
        cases q' with
        | node ds =>
          obtain ⟨ls, rfl⟩ := flat_node hfl
          exact ⟨ls, rfl⟩
        | leaf g =>
          rw [Pw.flatten.eq_def] at e'
          split at e'
          · cases e'
          · dsimp only at e'
            cases h1 : copyLeavesL (List.replicate (Pw.node cs).nregions none) 0 cs with
            | error _ => rw [h1] at e'; cases e'
            | ok s =>
              rw [h1, bind_ok] at e'
              cases h2 : nonNull s.1 with
              | error _ => rw [h2] at e'; cases e'
              | ok s => rw [h2, bind_ok] at e'; cases e'

theorem sameNodes_ok {tol : ℝ} {Na Nb : Nat} {na nb : List ℝ} (ha : na.length = Na) (hb : nb.length = Nb) :
    ∃ s, sameNodes tol Na Nb na nb = .ok s ∧ (s = true ↔ Na = Nb ∧ ∀ i, (h : i < na.length) → (h' : i < nb.length) → |na[i] - nb[i]| ≤ tol) := by
  rw [sameNodes.eq_def]
  by_cases c : Na = Nb
  · rw [if_pos c]
    obtain ⟨s, e, hs⟩ := forN_spec (n := Na) (s := true)
      (body := fun ii same => if same then do
          let u ← rd na ii
          let v ← rd nb ii
          pure (!decide (|u - v| > tol))
        else pure false)
      (I := fun m s => s = true ↔ ∀ i, i < m → (h : i < na.length) → (h' : i < nb.length) → |na[i] - nb[i]| ≤ tol)
      (by simp)
      (by
        intro m hm s hs
        cases s with
        | false =>
          refine ⟨false, rfl, ?_⟩
          simp only [Bool.false_eq_true, false_iff] at hs ⊢
          exact fun h => hs fun i hi => h i (by omega)
        | true =>
          refine ⟨!decide (|na[m]'(by omega) - nb[m]'(by omega)| > tol), ?_, ?_⟩
          · rw [if_pos rfl, rd_getElem (show m < na.length by omega), bind_ok, rd_getElem (show m < nb.length by omega), bind_ok]; rfl
          · have hs := hs.1 rfl
            simp only [gt_iff_lt, Bool.not_eq_true', decide_eq_false_iff_not, not_lt]
            constructor
            · intro h i hi h1 h2
              rcases Nat.lt_or_eq_of_le (Nat.le_of_lt_succ hi) with h3 | rfl
              · exact hs i h3 h1 h2
              · exact h
            · exact fun h => h m (by omega) _ _)
    refine ⟨s, e, hs.trans ⟨fun h => ⟨c, fun i h1 h2 => h i (by omega) h1 h2⟩, fun h i hi h1 h2 => h.2 i h1 h2⟩⟩
  · rw [if_neg c]
    exact ⟨false, rfl, by simp [c]⟩

/-- Two trees on one domain with Legendre leaves of degree below 8; their nodes are equal or at least `δ` apart. -/
structure Matchable (δ : ℝ) (a b : Pw ℝ) : Prop where
  oka : a.Ok
  okb : b.Ok
  sa : a.leaves.length = 1 → a.isLeaf = true
  sb : b.leaves.length = 1 → b.isLeaf = true
  la : ∀ f ∈ a.leaves, LegLeaf f ∧ f.num ≤ 8
  lb : ∀ f ∈ b.leaves, LegLeaf f ∧ f.num ≤ 8
  lo : a.lb = b.lb
  hi : a.ub = b.ub
  sep : ∀ u ∈ bds a oka.full ++ bds b okb.full, ∀ v ∈ bds a oka.full ++ bds b okb.full, u = v ∨ δ ≤ |u - v|

theorem ofLeaf {p : Pw ℝ} (h : p.isLeaf = true) : p.leaves.length = 1 := by
  cases p with
  | leaf f => rfl
  | node bs => cases h

/-- C77: both functions are represented on one partition, without changing them. -/
theorem match_ok {Q : PT → Nat → Rule ℝ} {gap tol tol2 tolA eps dflt δ : ℝ} (hQ : GoodRules Q gap) (cc : Nat → Rule ℝ)
    {fuel : Nat} (hfu : 30 ≤ fuel) (sq : ℝ → ℝ) {a b : Pw ℝ} (h : Matchable δ a b) (htol : 0 ≤ tol) (ht2 : 0 ≤ tol2) (ht2' : tol2 < δ) (he : 0 < eps) (he' : eps ≤ δ)
    (hgap0 : 0 ≤ gap) (hgap : tol ≤ gap * δ / 2) :
    ∃ as bs : List (Ope ℝ), List.Forall₂ Pair as bs ∧ as ≠ [] ∧ Consec as ∧ (∃ h0 : as ≠ [], a.lb = .ok (as.head h0).lb ∧ a.ub = .ok (as.getLast h0).ub) ∧
      (∀ t x, pieceVal t as x = pieceVal t a.leaves x) ∧ (∀ t x, pieceVal t bs x = pieceVal t b.leaves x) ∧
      ((a.isLeaf = true ∧ b.isLeaf = true ∧ ∃ f g, as = [f] ∧ bs = [g] ∧
          matchPw tol2 eps (legAdapt legFam 0 tolA Q cc fuel) (fun p x => p.eval tol dflt sq x) a b = .ok (.leaf f, .leaf g)) ∨
        ((a.isLeaf && b.isLeaf) = false ∧
          matchPw tol2 eps (legAdapt legFam 0 tolA Q cc fuel) (fun p x => p.eval tol dflt sq x) a b = .ok (.node (as.map Pw.leaf), .node (bs.map Pw.leaf)))) := by
  have ea := boundaries_value_partial h.oka.full h.sa
  have eb := boundaries_value_partial h.okb.full h.sb
  have la := lb_ok h.oka.full
  have ua := ub_ok h.oka.full
  have elo : (a.leaves.head (leaves_ne h.oka.full)).lb = (b.leaves.head (leaves_ne h.okb.full)).lb :=
    Except.ok.inj (by rw [← la, ← lb_ok h.okb.full, h.lo])
  have ehi : (a.leaves.getLast (leaves_ne h.oka.full)).ub = (b.leaves.getLast (leaves_ne h.okb.full)).ub :=
    Except.ok.inj (by rw [← ua, ← ub_ok h.okb.full, h.hi])
  have pa := List.length_pos_of_ne_nil (leaves_ne h.oka.full)
  have pb := List.length_pos_of_ne_nil (leaves_ne h.okb.full)
  have hlast : ∀ {p : Pw ℝ} (h : p.Full), (bds p h)[(bds p h).length - 1]'(by simp [bds]) = (p.leaves.getLast (leaves_ne h)).ub := fun {p} h => by
    have hp := List.length_pos_of_ne_nil (leaves_ne h)
    simp only [bds, List.length_cons, List.length_map, Nat.add_sub_cancel]
    rw [List.getElem_cons, dif_neg (by omega), List.getElem_map, List.getLast_eq_getElem]
  rw [matchPw]
  obtain ⟨s, es, hs⟩ := sameNodes_ok (tol := tol2) (na := bds a h.oka.full) (nb := bds b h.okb.full) rfl rfl
  rw [show a.boundaries = .ok (bds a h.oka.full) from ea, show b.boundaries = .ok (bds b h.okb.full) from eb, bind_ok, bind_ok, es, bind_ok]
  by_cases c : s = true
  · rw [if_pos c]
    obtain ⟨hn, hcl⟩ := hs.1 c
    have heq : bds a h.oka.full = bds b h.okb.full := List.ext_getElem hn fun i h1 h3 => by
      rcases h.sep _ (List.mem_append_left _ (List.getElem_mem h1)) _ (List.mem_append_right _ (List.getElem_mem h3)) with h4 | h4
      · exact h4
      · have := hcl i h1 h3; linarith
    have hub : a.leaves.map (·.ub) = b.leaves.map (·.ub) := by
      have := congrArg List.tail heq; simpa [bds] using this
    have hlen : a.leaves.length = b.leaves.length := by simpa using congrArg List.length hub
    obtain ⟨qa, a', ca, fa, sa, va, la'⟩ := flatCopy h.oka
    obtain ⟨qb, b', cb, fb, sb, vb, lb'⟩ := flatCopy h.okb
    have oka' := consec_same sa h.oka.consec
    have lena := sa.length_eq
    have lenb := sb.length_eq
    have hubi : ∀ i (h1 : i < a.leaves.length) (h2 : i < b.leaves.length), a.leaves[i].ub = b.leaves[i].ub := fun i h1 h2 => by
      have := List.getElem_of_eq hub (show i < (a.leaves.map (·.ub)).length by simpa using h1)
      simpa using this
    have hlbi : ∀ i (h1 : i < a.leaves.length) (h2 : i < b.leaves.length), a.leaves[i].lb = b.leaves[i].lb := fun i h1 h2 => by
      by_cases c0 : i = 0
      · subst c0; rw [List.head_eq_getElem, List.head_eq_getElem] at elo; exact elo
      · have h3 := List.isChain_iff_getElem.1 h.oka.consec.1 (i - 1) (by omega)
        have h4 := List.isChain_iff_getElem.1 h.okb.consec.1 (i - 1) (by omega)
        simp only [show i - 1 + 1 = i by omega] at h3 h4
        rw [← h3, ← h4]
        exact hubi _ _ _
    have hp : List.Forall₂ Pair a'.leaves b'.leaves := List.forall₂_iff_get.2 ⟨by omega, fun i h1 h2 => by
      have sa' := sa.get (show i < a.leaves.length by omega) h1
      have sb' := sb.get (show i < b.leaves.length by omega) h2
      simp only [List.get_eq_getElem] at sa' sb' ⊢
      have ma := (h.la _ (List.getElem_mem (show i < a.leaves.length by omega))).1
      have mb := (h.lb _ (List.getElem_mem (show i < b.leaves.length by omega))).1
      exact ⟨sa'.wf, sb'.wf, ma.same sa', mb.same sb', by rw [sa'.lb, sb'.lb]; exact hlbi _ _ _, by rw [sa'.ub, sb'.ub]; exact hubi _ _ _,
        by rw [sa'.krist]; exact h.oka.krist _ (List.getElem_mem _), by rw [sb'.krist]; exact h.okb.krist _ (List.getElem_mem _)⟩⟩
    have ne : a'.leaves ≠ [] := fun c0 => by rw [c0, List.length_nil] at lena; omega
    refine ⟨a'.leaves, b'.leaves, hp, ne, oka', ⟨ne, ?_, ?_⟩, va, vb, ?_⟩
    · rw [la, List.head_eq_getElem, List.head_eq_getElem]
      have := sa.get (show 0 < a.leaves.length by omega) (by omega)
      simp only [List.get_eq_getElem] at this
      rw [this.lb]
    · rw [ua, List.getLast_eq_getElem, List.getLast_eq_getElem]
      have := sa.get (show a.leaves.length - 1 < a.leaves.length by omega) (by rw [← lena]; omega)
      simp only [List.get_eq_getElem] at this
      simp only [← lena]
      rw [this.ub]
    · have em : (do
          let aa ← a.copy
          let bb ← b.copy
          let aa ← aa.flatten
          let bb ← bb.flatten
          pure (aa, bb) : C (Pw ℝ × Pw ℝ)) = .ok (a', b') := by
        rw [ca, bind_ok, cb, bind_ok, fa, bind_ok, fb, bind_ok]; rfl
      rw [em]
      rcases la' with ⟨ia, f, rfl⟩ | ⟨ia, ls, rfl⟩
      · have ib := h.sb (by rw [← hlen, ofLeaf ia])
        rcases lb' with ⟨_, g, rfl⟩ | ⟨ib', _⟩
        · exact .inl ⟨ia, ib, f, g, rfl, rfl, rfl⟩
        · rw [ib] at ib'; cases ib'
      · rcases lb' with ⟨ib, _⟩ | ⟨ib, ms, rfl⟩
        · have ia' := h.sa (by rw [hlen, ofLeaf ib])
          rw [ia] at ia'; cases ia'
        · refine .inr ⟨by rw [ia]; rfl, ?_⟩
          rw [show (Pw.node (ls.map Pw.leaf)).leaves = ls from leavesL_map_leaf ls, show (Pw.node (ms.map Pw.leaf)).leaves = ms from leavesL_map_leaf ms]
  · rw [if_neg c]
    have lena : (bds a h.oka.full).length = a.leaves.length + 1 := by simp [bds]
    have lenb : (bds b h.okb.full).length = b.leaves.length + 1 := by simp [bds]
    have ha0 : (bds a h.oka.full)[0] = (a.leaves.head (leaves_ne h.oka.full)).lb := rfl
    have hb0 : (bds b h.okb.full)[0] = (b.leaves.head (leaves_ne h.okb.full)).lb := rfl
    obtain ⟨ns, en, sn, mn⟩ := matchNodes_union (eps := eps) (bds_sorted h.oka) (bds_sorted h.okb) he
      (fun u hu v hv => by
        rcases h.sep v (List.mem_append_right _ hv) u (List.mem_append_left _ hu) with h1 | h1
        · exact .inl h1.symm
        · exact .inr (he'.trans h1)) (by omega) (by omega) (by rw [ha0, hb0, elo]) (by rw [hlast, hlast, ehi])
    have hmono : ∀ {i j : Nat} (hi : i < ns.length) (hj : j < ns.length), i ≤ j → ns[i] ≤ ns[j] := fun {i j} hi hj hij => by
      rcases Nat.lt_or_eq_of_le hij with h2 | rfl
      · exact (List.pairwise_iff_getElem.1 sn i j hi hj h2).le
      · exact le_rfl
    have lo_le : ∀ x ∈ ns, (a.leaves.head (leaves_ne h.oka.full)).lb ≤ x := fun x hx => by
      rcases (mn x).1 hx with h1 | h1
      · have := bds_sorted h.oka
        rw [bds, List.pairwise_cons] at this
        rcases List.mem_cons.1 h1 with rfl | h1
        · exact le_rfl
        · exact (this.1 x h1).le
      · have := bds_sorted h.okb
        rw [bds, List.pairwise_cons] at this
        rw [elo]
        rcases List.mem_cons.1 h1 with rfl | h1
        · exact le_rfl
        · exact (this.1 x h1).le
    have hi_ge : ∀ x ∈ ns, x ≤ (a.leaves.getLast (leaves_ne h.oka.full)).ub := fun x hx => by
      have key : ∀ {p : Pw ℝ} (hp : p.Ok), x ∈ bds p hp.full → x ≤ (p.leaves.getLast (leaves_ne hp.full)).ub := fun {p} hp hx => by
        obtain ⟨i, hi, rfl⟩ := List.getElem_of_mem hx
        rw [← hlast]
        rcases Nat.lt_or_eq_of_le (show i ≤ (bds p hp.full).length - 1 by omega) with h2 | h2
        · exact (List.pairwise_iff_getElem.1 (bds_sorted hp) _ _ _ _ h2).le
        · simp only [h2]; exact le_rfl
      rcases (mn x).1 hx with h1 | h1
      · exact key h.oka h1
      · rw [ehi]; exact key h.okb h1
    have mlo : (a.leaves.head (leaves_ne h.oka.full)).lb ∈ ns := (mn _).2 (.inl (by simp [bds]))
    have mhi : (a.leaves.getLast (leaves_ne h.oka.full)).ub ∈ ns := (mn _).2 (.inl (by rw [← hlast]; exact List.getElem_mem _))
    have npos : 0 < ns.length := List.length_pos_of_mem mlo
    have elo0 : (a.leaves.head (leaves_ne h.oka.full)).lb = ns[0] := by
      refine le_antisymm (lo_le _ (List.getElem_mem _)) ?_
      obtain ⟨i, hi, ei⟩ := List.getElem_of_mem mlo
      rw [← ei]; exact hmono _ _ (by omega)
    have ehi0 : (a.leaves.getLast (leaves_ne h.oka.full)).ub = ns[ns.length - 1] := by
      refine le_antisymm ?_ (hi_ge _ (List.getElem_mem _))
      obtain ⟨i, hi, ei⟩ := List.getElem_of_mem mhi
      rw [← ei]; exact hmono _ _ (by omega)
    -- the refinement has an inner node
    have hn3 : 3 ≤ ns.length := by
      by_contra c3
      have key : ∀ {p : Pw ℝ} (hp : p.Ok), (∀ x ∈ bds p hp.full, x ∈ ns) → p.leaves.length = 1 := fun {p} hp hsub => by
        have h1 : (bds p hp.full).Nodup := (bds_sorted hp).imp fun h => h.ne
        have h2 := (h1.subperm hsub).length_le
        have h3 := List.length_pos_of_ne_nil (leaves_ne hp.full)
        have h4 : (bds p hp.full).length = p.leaves.length + 1 := by simp [bds]
        omega
      have k1 := key h.oka fun x hx => (mn x).2 (.inl hx)
      have k2 := key h.okb fun x hx => (mn x).2 (.inr hx)
      refine c (hs.2 ⟨by omega, fun i h1 h2 => ?_⟩)
      have hl1 := hlast h.oka.full
      have hl2 := hlast h.okb.full
      simp only [lena, lenb, k1, k2] at hl1 hl2
      rcases (show i = 0 ∨ i = 1 by omega) with rfl | rfl
      · rw [ha0, hb0, elo, sub_self, abs_zero]; exact ht2
      · rw [show (bds a h.oka.full)[1] = _ from hl1, show (bds b h.okb.full)[1] = _ from hl2, ehi, sub_self, abs_zero]; exact ht2
    have hcell : ∀ i (hi : i + 1 < ns.length), tol ≤ gap * (ns[i + 1] - ns[i]) / 2 := fun i hi => by
      have hlt := List.pairwise_iff_getElem.1 sn i (i + 1) (by omega) hi (by omega)
      have m1 := (mn _).1 (List.getElem_mem (show i < ns.length by omega))
      have m2 := (mn _).1 (List.getElem_mem hi)
      rcases h.sep _ (List.mem_append.2 m2) _ (List.mem_append.2 m1) with h1 | h1
      · linarith
      · rw [abs_of_pos (by linarith)] at h1
        have := mul_le_mul_of_nonneg_left h1 hgap0
        linarith
    obtain ⟨as, ra, l1, g1, v1⟩ := finerGrid_ok (tolA := tolA) (dflt := dflt) hQ cc hfu sq h.oka (fun f hf => (h.la f hf).1.fam) (fun f hf => (h.la f hf).2) sn hn3 elo0
      (fun f hf => (mn _).2 (.inl (by rw [bds]; exact List.mem_cons_of_mem _ (List.mem_map_of_mem hf)))) ehi0 htol hcell
    obtain ⟨bs, rb, l2, g2, v2⟩ := finerGrid_ok (tolA := tolA) (dflt := dflt) hQ cc hfu sq h.okb (fun f hf => (h.lb f hf).1.fam) (fun f hf => (h.lb f hf).2) sn hn3 (elo.symm.trans elo0)
      (fun f hf => (mn _).2 (.inr (by rw [bds]; exact List.mem_cons_of_mem _ (List.mem_map_of_mem hf)))) (ehi.symm.trans ehi0) htol hcell
    have ne : as ≠ [] := fun c0 => by rw [c0] at l1; simp at l1; omega
    refine ⟨as, bs, List.forall₂_iff_get.2 ⟨by omega, fun i h1 h2 => ?_⟩, ne, ⟨List.isChain_iff_getElem.2 fun i hi => ?_, fun f hf => ?_⟩, ⟨ne, ?_, ?_⟩, v1, v2, .inr ⟨?_, ?_⟩⟩
    · obtain ⟨a1, a2, a3, a4, a5⟩ := g1 i h1 (by omega)
      obtain ⟨b1, b2, b3, b4, b5⟩ := g2 i h2 (by omega)
      exact ⟨a1, b1, a2, b2, a4.trans b4.symm, a5.trans b5.symm, a3, b3⟩
    · obtain ⟨-, -, -, -, a5⟩ := g1 i (by omega) (by omega)
      obtain ⟨-, -, -, b4, -⟩ := g1 (i + 1) hi (by omega)
      rw [a5, b4]
    · obtain ⟨i, hi, rfl⟩ := List.getElem_of_mem hf
      obtain ⟨-, -, -, a4, a5⟩ := g1 i (by omega) (by omega)
      rw [a4, a5]
      exact List.pairwise_iff_getElem.1 sn _ _ _ _ (by omega)
    · obtain ⟨-, -, -, a4, -⟩ := g1 0 (by omega) (by omega)
      rw [la, List.head_eq_getElem ne, a4, elo0]
    · obtain ⟨-, -, -, -, a5⟩ := g1 (as.length - 1) (by omega) (by omega)
      rw [ua, List.getLast_eq_getElem ne, a5, ehi0]
      congr 2
      omega
    · by_contra c2
      rw [Bool.not_eq_false, Bool.and_eq_true] at c2
      have k1 := ofLeaf c2.1
      have k2 := ofLeaf c2.2
      refine c (hs.2 ⟨by omega, fun i h1 h2 => ?_⟩)
      have hl1 := hlast h.oka.full
      have hl2 := hlast h.okb.full
      simp only [lena, lenb, k1, k2] at hl1 hl2
      rcases (show i = 0 ∨ i = 1 by omega) with rfl | rfl
      · rw [ha0, hb0, elo, sub_self, abs_zero]; exact ht2
      · rw [show (bds a h.oka.full)[1] = _ from hl1, show (bds b h.okb.full)[1] = _ from hl2, ehi, sub_self, abs_zero]; exact ht2
    · rw [en, bind_ok, ra, bind_ok, rb, bind_ok]; rfl

/-! ### Arithmetic -/

theorem scale_same {a : ℝ} {f : Ope ℝ} (w : f.WF) : ∃ r, C3.Poly.scale 0 a f = .ok r ∧ Same f r ∧ ∀ x, r.val x = a * f.val x := by
  obtain ⟨d, ed, l, v⟩ := C3.Poly.mulAll_ok a (w.num_le.trans w.alloc_le)
  obtain ⟨r', er, hro, -⟩ := C3.Poly.round_ok (thr := (0 : ℝ)) (f := { f with coeff := d }) w.pos (by
    show f.num ≤ d.length; rw [l]; exact w.num_le.trans w.alloc_le)
  obtain ⟨r, e, rw', rf, rm, rl, ru, -, -, hv⟩ := C3.Poly.scale_value (a := a) (thr := (0 : ℝ)) w le_rfl (M := ∑ k ∈ Finset.range f.num, |a * f.cf k|)
    (fun k hk => Finset.single_le_sum (f := fun k => |a * f.cf k|) (fun _ _ => abs_nonneg _) (Finset.mem_range.2 hk))
  have ek : r.krist = f.krist := by
    have : r' = r := Except.ok.inj (by rw [← e, C3.Poly.scale, ed, bind_ok, er])
    rw [← this, hro.krist]
  refine ⟨r, e, ⟨rw', ek, rl, ru, rf, rm⟩, fun x => ?_⟩
  have := hv x
  rw [zero_mul, zero_mul] at this
  exact sub_eq_zero.1 (abs_eq_zero.1 (le_antisymm this (abs_nonneg _)))

theorem Pair.axpy {aeps α : ℝ} (he : 0 < aeps) {f g : Ope ℝ} (h : Pair f g) :
    ∃ r, C3.Poly.axpy 0 aeps α f g = .ok r ∧ Same f r ∧ ∀ x, r.val x = α * f.val x + g.val x := by
  obtain ⟨r, e, w, rf, rm, rl, ru, rk, -, -, hv⟩ := C3.Poly.axpy_value (thr := (0 : ℝ)) (eps := aeps) (a := α) h.wf h.wg le_rfl (h.lf.fam.trans h.lg.fam.symm) h.map
    (by rw [h.lb, sub_self, abs_zero]; exact he) (by rw [h.ub, sub_self, abs_zero]; exact he)
  refine ⟨r, e, ⟨w, by rw [rk, h.kf, h.kg], by rw [rl, h.lb], by rw [ru, h.ub], by rw [rf, h.lf.fam, h.lg.fam], by rw [rm, h.map]⟩, fun x => ?_⟩
  have := hv x
  rw [zero_mul] at this
  exact sub_eq_zero.1 (abs_eq_zero.1 (le_antisymm this (abs_nonneg _)))

theorem Pair.daxpby {aeps α β : ℝ} (he : 0 < aeps) {f g : Ope ℝ} (h : Pair f g) :
    ∃ r, C3.Poly.daxpby 0 aeps α (some f) β (some g) = .ok r ∧ Same f r ∧ ∀ x, r.val x = α * f.val x + β * g.val x := by
  obtain ⟨c, ec, sc, vc⟩ := copy_same h.wg
  obtain ⟨s, es, ss, vs⟩ := scale_same (a := β) sc.wf
  have ts : Same g s := ⟨ss.wf, ss.krist.trans sc.krist, ss.lb.trans sc.lb, ss.ub.trans sc.ub, ss.fam.trans sc.fam, ss.map.trans sc.map⟩
  have hp : Pair f s := ⟨h.wf, ss.wf, h.lf, h.lg.same ts, by rw [ts.lb, h.lb], by rw [ts.ub, h.ub], h.kf, by rw [ts.krist, h.kg]⟩
  obtain ⟨r, e, sr, vr⟩ := hp.axpy (α := α) he
  exact ⟨r, by rw [C3.Poly.daxpby, ec, bind_ok, es, bind_ok, e], sr, fun x => by rw [vr, vs, vc]⟩

theorem axpyL_ok {aeps α : ℝ} (he : 0 < aeps) {as bs : List (Ope ℝ)} (h : List.Forall₂ Pair as bs) :
    ∃ rs : List (Ope ℝ), matchedAxpyL 0 aeps α (as.map Pw.leaf) (bs.map Pw.leaf) = .ok (rs.map Pw.leaf) ∧ List.Forall₂ Same as rs ∧
      ∀ t x, pieceVal t rs x = α * pieceVal t as x + pieceVal t bs x := by
  induction h with
  | nil => exact ⟨[], rfl, .nil, fun t x => by simp [pieceVal]⟩
  | cons hp _ ih =>
    obtain ⟨rs, e, s, v⟩ := ih
    obtain ⟨r, er, sr, vr⟩ := hp.axpy (α := α) he
    refine ⟨r :: rs, ?_, .cons sr s, fun t x => ?_⟩
    · rw [List.map_cons, List.map_cons, matchedAxpyL, matchedAxpy, er, bind_ok, pure_eq_ok, bind_ok, e, bind_ok]; rfl
    · rw [pieceVal_cons, pieceVal_cons, pieceVal_cons, sr.ub, ← hp.ub]
      split
      · exact vr x
      · exact v t x

theorem daxpbyL_ok {aeps α β : ℝ} (he : 0 < aeps) {as bs : List (Ope ℝ)} (h : List.Forall₂ Pair as bs) :
    ∃ rs : List (Ope ℝ), matchedDaxpbyL 0 aeps α β (as.map Pw.leaf) (bs.map Pw.leaf) = .ok (rs.map Pw.leaf) ∧ List.Forall₂ Same as rs ∧
      ∀ t x, pieceVal t rs x = α * pieceVal t as x + β * pieceVal t bs x := by
  induction h with
  | nil => exact ⟨[], rfl, .nil, fun t x => by simp [pieceVal]⟩
  | cons hp _ ih =>
    obtain ⟨rs, e, s, v⟩ := ih
    obtain ⟨r, er, sr, vr⟩ := hp.daxpby (α := α) (β := β) he
    refine ⟨r :: rs, ?_, .cons sr s, fun t x => ?_⟩
    · rw [List.map_cons, List.map_cons, matchedDaxpbyL, matchedDaxpby, er, bind_ok, pure_eq_ok, bind_ok, e, bind_ok]; rfl
    · rw [pieceVal_cons, pieceVal_cons, pieceVal_cons, sr.ub, ← hp.ub]
      split
      · exact vr x
      · exact v t x

theorem innerLoop_ok {inner : Ope ℝ → Ope ℝ → C ℝ} (hin : ∀ f g, Pair f g → inner f g = .ok (∫ x in f.lb..f.ub, f.val x * g.val x)) {as bs : List (Ope ℝ)} (h : List.Forall₂ Pair as bs) (out : ℝ) :
    innerLoop inner out (as.map Pw.leaf) (bs.map Pw.leaf) = .ok (out + (List.zipWith (fun f g => ∫ x in f.lb..f.ub, f.val x * g.val x) as bs).sum) := by
  induction h generalizing out with
  | nil => simp [innerLoop]
  | cons hp _ ih =>
    rw [List.map_cons, List.map_cons, innerLoop, hin _ _ hp, bind_ok, ih, List.zipWith_cons_cons, List.sum_cons, add_assoc]

/-- The integrals of the products of matched pieces add up. -/
theorem sum_pieces2 : ∀ {as bs : List (Ope ℝ)} (h0 : as ≠ []), List.Forall₂ Pair as bs → Consec as →
    IntervalIntegrable (fun x => pieceVal 0 as x * pieceVal 0 bs x) volume (as.head h0).lb (as.getLast h0).ub ∧
    (List.zipWith (fun f g => ∫ x in f.lb..f.ub, f.val x * g.val x) as bs).sum = ∫ x in (as.head h0).lb..(as.getLast h0).ub, pieceVal 0 as x * pieceVal 0 bs x
  | [], _, h0, _, _ => absurd rfl h0
  | f :: ls, g :: ms, _, .cons hp ht, hc => by
    have hlt := hc.2 f (by simp)
    have hae : ∀ᵐ x : ℝ, x ∈ Set.uIoc f.lb f.ub → f.val x * g.val x = pieceVal 0 (f :: ls) x * pieceVal 0 (g :: ms) x := by
      have : ∀ᵐ x : ℝ, x ≠ f.ub := by simp [ae_iff]
      filter_upwards [this] with x hx hm
      rw [Set.uIoc_of_le hlt.le] at hm
      rw [pieceVal_lt (lt_of_le_of_ne hm.2 hx), pieceVal_lt (by rw [← hp.ub]; exact lt_of_le_of_ne hm.2 hx)]
    have hi1 : IntervalIntegrable (fun x => pieceVal 0 (f :: ls) x * pieceVal 0 (g :: ms) x) volume f.lb f.ub :=
      (((val_continuous f).mul (val_continuous g)).intervalIntegrable _ _).congr_ae ((ae_restrict_iff' measurableSet_uIoc).2 hae)
    by_cases hn : ls = []
    · subst hn
      cases ht
      exact ⟨hi1, by simpa using intervalIntegral.integral_congr_ae hae⟩
    · have hc' : Consec ls := ⟨hc.1.tail, fun g hg => hc.2 g (List.mem_cons_of_mem _ hg)⟩
      obtain ⟨ih1, ih2⟩ := sum_pieces2 hn ht hc'
      have hfub : f.ub = (ls.head hn).lb := by
        obtain ⟨g, l, rfl⟩ := List.exists_cons_of_ne_nil hn
        exact (List.isChain_cons_cons.1 hc.1).1
      have hle : (ls.head hn).lb ≤ (ls.getLast hn).ub := by
        have := last_max hc'.pairwise hn (List.head_mem hn)
        exact (hc'.2 _ (List.head_mem hn)).le.trans this
      have heq : ∀ x ∈ Set.uIoc (ls.head hn).lb (ls.getLast hn).ub, pieceVal 0 ls x * pieceVal 0 ms x = pieceVal 0 (f :: ls) x * pieceVal 0 (g :: ms) x := fun x hx => by
        rw [Set.uIoc_of_le hle] at hx
        rw [pieceVal_ge (f := f) (by rw [hfub]; exact hx.1.le), pieceVal_ge (f := g) (by rw [← hp.ub, hfub]; exact hx.1.le)]
      have hi2 : IntervalIntegrable (fun x => pieceVal 0 (f :: ls) x * pieceVal 0 (g :: ms) x) volume (ls.head hn).lb (ls.getLast hn).ub := ih1.congr heq
      rw [List.getLast_cons hn, List.head_cons]
      refine ⟨hi1.trans (by rw [hfub]; exact hi2), ?_⟩
      rw [List.zipWith_cons_cons, List.sum_cons, ih2, ← intervalIntegral.integral_add_adjacent_intervals hi1 (by rw [hfub]; exact hi2)]
      congr 1
      · exact intervalIntegral.integral_congr_ae hae
      · rw [hfub]; exact intervalIntegral.integral_congr_ae (Filter.Eventually.of_forall heq)

/-- The properties of a result on the partition `as`. -/
theorem node_ok {as rs : List (Ope ℝ)} (h0 : as ≠ []) (hc : Consec as) (hk : ∀ f ∈ as, f.krist = false) (hl : ∀ f ∈ as, LegLeaf f) (hs : List.Forall₂ Same as rs) :
    (Pw.node (rs.map Pw.leaf)).Ok ∧ (∀ f ∈ rs, LegLeaf f) ∧ (Pw.node (rs.map Pw.leaf)).lb = .ok (as.head h0).lb ∧ (Pw.node (rs.map Pw.leaf)).ub = .ok (as.getLast h0).ub := by
  have el : (Pw.node (rs.map Pw.leaf)).leaves = rs := leavesL_map_leaf rs
  have hlen := hs.length_eq
  have hp := List.length_pos_of_ne_nil h0
  have hfull : (Pw.node (rs.map Pw.leaf)).Full := by
    rw [Pw.Full]
    refine ⟨fun c => ?_, fullL_map_leaf rs⟩
    rw [List.map_eq_nil_iff] at c
    rw [c, List.length_nil] at hlen
    omega
  have get : ∀ g ∈ rs, ∃ f ∈ as, Same f g := fun g hg => by
    obtain ⟨i, hi, rfl⟩ := List.getElem_of_mem hg
    exact ⟨_, List.getElem_mem (by omega), hs.get (by omega) hi⟩
  refine ⟨⟨hfull, by rw [el]; exact consec_same hs hc, fun g hg => ?_, fun g hg => ?_⟩, fun g hg => ?_, ?_, ?_⟩
  · rw [el] at hg; obtain ⟨f, -, s⟩ := get g hg; exact s.wf
  · rw [el] at hg; obtain ⟨f, hf, s⟩ := get g hg; rw [s.krist, hk f hf]
  · obtain ⟨f, hf, s⟩ := get g hg; exact (hl f hf).same s
  · rw [lb_ok hfull, List.head_eq_getElem, List.head_eq_getElem]
    have := hs.get hp (by omega)
    simp only [List.get_eq_getElem] at this
    simp only [el]
    rw [this.lb]
  · rw [ub_ok hfull, List.getLast_eq_getElem, List.getLast_eq_getElem]
    have := hs.get (show as.length - 1 < as.length by omega) (by omega)
    simp only [List.get_eq_getElem] at this
    simp only [el, ← hlen]
    rw [this.ub]

theorem pairs_left {as bs : List (Ope ℝ)} (h : List.Forall₂ Pair as bs) : ∀ f ∈ as, ∃ g ∈ bs, Pair f g := fun f hf => by
  obtain ⟨i, hi, rfl⟩ := List.getElem_of_mem hf
  have hl := h.length_eq
  exact ⟨_, List.getElem_mem (by omega), h.get hi (by omega)⟩

/-- C77: `y ← αx + y` is the sum as a function, on the domain of `x`. -/
theorem axpy_value_partial {Q : PT → Nat → Rule ℝ} {gap tol tol2 tolA eps aeps dflt δ : ℝ} (hQ : GoodRules Q gap) (cc : Nat → Rule ℝ)
    {fuel : Nat} (hfu : 30 ≤ fuel) (sq : ℝ → ℝ) {a b : Pw ℝ} (h : Matchable δ a b) (htol : 0 ≤ tol) (ht2 : 0 ≤ tol2) (ht2' : tol2 < δ) (he : 0 < eps) (he' : eps ≤ δ)
    (hgap0 : 0 ≤ gap) (hgap : tol ≤ gap * δ / 2) (hae : 0 < aeps) (α : ℝ) :
    ∃ r, axpy tol2 eps 0 aeps (legAdapt legFam 0 tolA Q cc fuel) (fun p x => p.eval tol dflt sq x) α a b = .ok r ∧ r.Ok ∧ r.lb = a.lb ∧ r.ub = a.ub ∧ (∀ f ∈ r.leaves, LegLeaf f) ∧
      ∀ t x, pieceVal t r.leaves x = α * pieceVal t a.leaves x + pieceVal t b.leaves x := by
  obtain ⟨as, bs, hp, -, hc, ⟨h0, la, ua⟩, va, vb, hm⟩ := match_ok (tolA := tolA) (dflt := dflt) hQ cc hfu sq h htol ht2 ht2' he he' hgap0 hgap
  obtain ⟨rs, e, s, v⟩ := axpyL_ok (α := α) hae hp
  rcases hm with ⟨ia, ib, f, g, rfl, rfl, em⟩ | ⟨hnl, em⟩
  · cases a with
    | node _ => cases ia
    | leaf f' =>
      cases b with
      | node _ => cases ib
      | leaf g' =>
        have hf := h.la f' (by simp [Pw.leaves])
        have hg := h.lb g' (by simp [Pw.leaves])
        have hp' : Pair f' g' := ⟨h.oka.wf f' (by simp [Pw.leaves]), h.okb.wf g' (by simp [Pw.leaves]), hf.1, hg.1, by have := h.lo; simpa [Pw.lb] using this,
          by have := h.hi; simpa [Pw.ub] using this, h.oka.krist f' (by simp [Pw.leaves]), h.okb.krist g' (by simp [Pw.leaves])⟩
        obtain ⟨r, er, sr, vr⟩ := hp'.axpy (α := α) hae
        refine ⟨.leaf r, by rw [axpy.eq_def]; dsimp only; rw [er]; rfl, h.oka.of_rel (by simp [Pw.Full]) (.cons sr .nil), by rw [Pw.lb, Pw.lb, sr.lb], by rw [Pw.ub, Pw.ub, sr.ub],
          fun f hf' => ?_, fun t x => ?_⟩
        · simp only [Pw.leaves, List.mem_singleton] at hf'
          subst hf'
          exact hf.1.same sr
        · rw [Pw.leaves, Pw.leaves, Pw.leaves, pieceVal_cons, pieceVal_cons, pieceVal_cons, sr.ub, ← hp'.ub]
          split
          · exact vr x
          · simp [pieceVal]
  · have hk : ∀ f ∈ as, f.krist = false := fun f hf => by obtain ⟨g, -, q⟩ := pairs_left hp f hf; exact q.kf
    have hl : ∀ f ∈ as, LegLeaf f := fun f hf => by obtain ⟨g, -, q⟩ := pairs_left hp f hf; exact q.lf
    obtain ⟨rok, -, -, -⟩ := node_ok h0 hc hk hl s
    obtain ⟨q, eq, qok, qs, qv⟩ := copy_value rok
    rw [show (Pw.node (rs.map Pw.leaf)).leaves = rs from leavesL_map_leaf rs] at qs qv
    have s2 := same_trans s qs
    have hqn : q.leaves ≠ [] := leaves_ne qok.full
    have ea : axpy tol2 eps 0 aeps (legAdapt legFam 0 tolA Q cc fuel) (fun p x => p.eval tol dflt sq x) α a b = .ok q := by
      have key : (do
          let m ← matchPw tol2 eps (legAdapt legFam 0 tolA Q cc fuel) (fun p x => p.eval tol dflt sq x) a b
          let r ← matchedAxpy 0 aeps α m.1 m.2
          r.copy : C (Pw ℝ)) = .ok q := by
        rw [em, bind_ok, matchedAxpy, e, bind_ok, pure_eq_ok, bind_ok, eq]
      cases a with
      | node _ => exact key
      | leaf f =>
        cases b with
        | node _ => exact key
        | leaf g => cases hnl
    have hlen := s2.length_eq
    have hpos := List.length_pos_of_ne_nil h0
    refine ⟨q, ea, qok, ?_, ?_, fun f hf => ?_, fun t x => by rw [qv, v, va, vb]⟩
    · rw [lb_ok qok.full, la, List.head_eq_getElem, List.head_eq_getElem]
      have := s2.get hpos (by omega)
      simp only [List.get_eq_getElem] at this
      rw [this.lb]
    · rw [ub_ok qok.full, ua, List.getLast_eq_getElem, List.getLast_eq_getElem]
      have := s2.get (show as.length - 1 < as.length by omega) (by omega)
      simp only [List.get_eq_getElem] at this
      simp only [← hlen]
      rw [this.ub]
    · obtain ⟨i, hi, rfl⟩ := List.getElem_of_mem hf
      have := s2.get (show i < as.length by omega) hi
      exact (hl _ (List.getElem_mem _)).same this

/-- C77: `αx + βy` is the linear combination as a function, on the domain of `x`. -/
theorem daxpby_value_partial {Q : PT → Nat → Rule ℝ} {gap tol tol2 tolA eps aeps dflt δ : ℝ} (hQ : GoodRules Q gap) (cc : Nat → Rule ℝ)
    {fuel : Nat} (hfu : 30 ≤ fuel) (sq : ℝ → ℝ) {a b : Pw ℝ} (h : Matchable δ a b) (htol : 0 ≤ tol) (ht2 : 0 ≤ tol2) (ht2' : tol2 < δ) (he : 0 < eps) (he' : eps ≤ δ)
    (hgap0 : 0 ≤ gap) (hgap : tol ≤ gap * δ / 2) (hae : 0 < aeps) (α β : ℝ) :
    ∃ r, daxpby tol2 eps 0 aeps (legAdapt legFam 0 tolA Q cc fuel) (fun p x => p.eval tol dflt sq x) α (some a) β (some b) = .ok (some r) ∧ r.Ok ∧ r.lb = a.lb ∧ r.ub = a.ub ∧
      (∀ f ∈ r.leaves, LegLeaf f) ∧ ∀ t x, pieceVal t r.leaves x = α * pieceVal t a.leaves x + β * pieceVal t b.leaves x := by
  obtain ⟨as, bs, hp, -, hc, ⟨h0, la, ua⟩, va, vb, hm⟩ := match_ok (tolA := tolA) (dflt := dflt) hQ cc hfu sq h htol ht2 ht2' he he' hgap0 hgap
  obtain ⟨rs, e, s, v⟩ := daxpbyL_ok (α := α) (β := β) hae hp
  have hk : ∀ f ∈ as, f.krist = false := fun f hf => by obtain ⟨g, -, q⟩ := pairs_left hp f hf; exact q.kf
  have hl : ∀ f ∈ as, LegLeaf f := fun f hf => by obtain ⟨g, -, q⟩ := pairs_left hp f hf; exact q.lf
  obtain ⟨rok, rl, rlb, rub⟩ := node_ok h0 hc hk hl s
  have el : (Pw.node (rs.map Pw.leaf)).leaves = rs := leavesL_map_leaf rs
  rcases hm with ⟨ia, ib, f, g, rfl, rfl, em⟩ | ⟨hnl, em⟩
  · cases hp with
    | cons hp' _ =>
    obtain ⟨r, er, sr, vr⟩ := hp'.daxpby (α := α) (β := β) hae
    have hrs : rs = [r] := by
      rw [List.map_cons, List.map_cons, matchedDaxpbyL, matchedDaxpby, er, bind_ok, pure_eq_ok, bind_ok, List.map_nil, matchedDaxpbyL, bind_ok, pure_eq_ok] at e
      have e := Except.ok.inj e
      cases rs with
      | nil => cases e
      | cons x xs =>
        cases xs with
        | nil => rw [List.map_cons, List.map_nil] at e; cases e; rfl
        | cons _ _ => rw [List.map_cons, List.map_cons] at e; cases e
    subst hrs
    refine ⟨.leaf r, by rw [daxpby.eq_def]; dsimp only; rw [em, bind_ok, matchedDaxpby, er]; rfl, ?_, ?_, ?_, ?_, fun t x => ?_⟩
    · exact ⟨by simp [Pw.Full], rok.consec, rok.wf, rok.krist⟩
    · rw [la, Pw.lb, sr.lb]; rfl
    · rw [ua, Pw.ub, sr.ub]; rfl
    · exact rl
    · rw [← va, ← vb]; exact v t x
  · refine ⟨.node (rs.map Pw.leaf), ?_, rok, by rw [rlb, la], by rw [rub, ua], by rw [el]; exact rl, fun t x => by rw [el, v, va, vb]⟩
    rw [daxpby.eq_def]
    dsimp only
    rw [em, bind_ok, matchedDaxpby, cassert_of (by simp [hp.length_eq]), bind_ok, e]
    rfl

/-- C77: a NULL operand counts as zero. -/
theorem daxpby_null {tol2 eps aeps : ℝ} (adapt : ℝ → ℝ → (ℝ → C ℝ) → C (Ope ℝ)) (ev : Pw ℝ → ℝ → C ℝ) {a : Pw ℝ} (h : a.Ok) (α β : ℝ) :
    (∃ r, daxpby tol2 eps 0 aeps adapt ev α (some a) β none = .ok (some r) ∧ r.Ok ∧ ∀ t x, pieceVal t r.leaves x = α * pieceVal t a.leaves x) ∧
    (∃ r, daxpby tol2 eps 0 aeps adapt ev β none α (some a) = .ok (some r) ∧ r.Ok ∧ ∀ t x, pieceVal t r.leaves x = α * pieceVal t a.leaves x) := by
  obtain ⟨c, ec, cok, -, cv⟩ := copy_value h
  obtain ⟨r, er, rok, rv⟩ := scale_exact (a := α) cok
  exact ⟨⟨r, by rw [daxpby.eq_def]; dsimp only; rw [ec, bind_ok, er]; rfl, rok, fun t x => by rw [rv, cv]⟩,
    ⟨r, by rw [daxpby.eq_def]; dsimp only; rw [ec, bind_ok, er]; rfl, rok, fun t x => by rw [rv, cv]⟩⟩

/-- C77: the inner product is the integral of the product over the common domain. -/
theorem inner_value_partial {Q : PT → Nat → Rule ℝ} {gap tol tol2 tolA eps dflt δ : ℝ} (hQ : GoodRules Q gap) (cc : Nat → Rule ℝ)
    {fuel : Nat} (hfu : 30 ≤ fuel) (sq : ℝ → ℝ) {a b : Pw ℝ} (h : Matchable δ a b) (htol : 0 ≤ tol) (ht2 : 0 ≤ tol2) (ht2' : tol2 < δ) (he : 0 < eps) (he' : eps ≤ δ)
    (hgap0 : 0 ≤ gap) (hgap : tol ≤ gap * δ / 2) (other : Ope ℝ → Ope ℝ → C ℝ) {l u : ℝ} (hl : a.lb = .ok l) (hu : a.ub = .ok u) :
    innerPw tol2 eps (legAdapt legFam 0 tolA Q cc fuel) (fun p x => p.eval tol dflt sq x) (C3.Poly.inner other) a b =
      .ok (∫ x in l..u, pieceVal 0 a.leaves x * pieceVal 0 b.leaves x) := by
  have hin : ∀ f g, Pair f g → C3.Poly.inner other f g = .ok (∫ x in f.lb..f.ub, f.val x * g.val x) := fun f g hp =>
    C3.Poly.inner_leg other hp.wf hp.wg hp.lf.fam hp.lg.fam hp.lf.int hp.map.symm
  obtain ⟨as, bs, hp, -, hc, ⟨h0, la, ua⟩, va, vb, hm⟩ := match_ok (tolA := tolA) (dflt := dflt) hQ cc hfu sq h htol ht2 ht2' he he' hgap0 hgap
  have hs := (sum_pieces2 h0 hp hc).2
  have e1 : (as.head h0).lb = l := Except.ok.inj (by rw [← la, hl])
  have e2 : (as.getLast h0).ub = u := Except.ok.inj (by rw [← ua, hu])
  rw [e1, e2] at hs
  simp only [va, vb] at hs
  rcases hm with ⟨ia, ib, f, g, rfl, rfl, em⟩ | ⟨hnl, em⟩
  · cases a with
    | node _ => cases ia
    | leaf f' =>
      cases b with
      | node _ => cases ib
      | leaf g' =>
        have hf := h.la f' (by simp [Pw.leaves])
        have hg := h.lb g' (by simp [Pw.leaves])
        have hp' : Pair f' g' := ⟨h.oka.wf f' (by simp [Pw.leaves]), h.okb.wf g' (by simp [Pw.leaves]), hf.1, hg.1, by have := h.lo; simpa [Pw.lb] using this,
          by have := h.hi; simpa [Pw.ub] using this, h.oka.krist f' (by simp [Pw.leaves]), h.okb.krist g' (by simp [Pw.leaves])⟩
        have := (sum_pieces2 (as := [f']) (bs := [g']) (by simp) (.cons hp' .nil) h.oka.consec).2
        rw [innerPw.eq_def]
        dsimp only
        rw [hin _ _ hp']
        simp only [List.zipWith_cons_cons, List.zipWith_nil_right, List.sum_cons, List.sum_nil, add_zero, List.head_cons, List.getLast_singleton] at this
        rw [Pw.lb] at hl
        rw [Pw.ub] at hu
        rw [this, Except.ok.inj hl, Except.ok.inj hu]
        rfl
  · have key : (do
        let m ← matchPw tol2 eps (legAdapt legFam 0 tolA Q cc fuel) (fun p x => p.eval tol dflt sq x) a b
        let aa ← m.1.flatten
        let bb ← m.2.flatten
        innerFlat (C3.Poly.inner other) aa bb : C ℝ) = .ok (∫ x in l..u, pieceVal 0 a.leaves x * pieceVal 0 b.leaves x) := by
      have fl : ∀ ls : List (Ope ℝ), (Pw.node (ls.map Pw.leaf)).flatten = .ok (.node (ls.map Pw.leaf)) := fun ls => by
        rw [Pw.flatten.eq_def, if_pos (by simp [Pw.isFlat, Pw.isLeaf])]
      rw [em, bind_ok]
      dsimp only
      rw [fl, bind_ok, fl, bind_ok, innerFlat.eq_def]
      dsimp only
      rw [innerLoop_ok hin hp, hs, zero_add]
    cases a with
    | node _ => exact key
    | leaf f =>
      cases b with
      | node _ => exact key
      | leaf g => cases hnl

/-- C77: the norm is the root of the integral of the square. -/
theorem norm_value_partial {Q : PT → Nat → Rule ℝ} {gap tol tol2 tolA eps dflt δ : ℝ} (hQ : GoodRules Q gap) (cc : Nat → Rule ℝ)
    {fuel : Nat} (hfu : 30 ≤ fuel) (sq : ℝ → ℝ) {a : Pw ℝ} (h : Matchable δ a a) (htol : 0 ≤ tol) (ht2 : 0 ≤ tol2) (ht2' : tol2 < δ) (he : 0 < eps) (he' : eps ≤ δ)
    (hgap0 : 0 ≤ gap) (hgap : tol ≤ gap * δ / 2) (other : Ope ℝ → Ope ℝ → C ℝ) {l u : ℝ} (hl : a.lb = .ok l) (hu : a.ub = .ok u) :
    normPw tol2 eps (legAdapt legFam 0 tolA Q cc fuel) (fun p x => p.eval tol dflt sq x) (C3.Poly.inner other) Real.sqrt a =
      .ok (Real.sqrt (∫ x in l..u, pieceVal 0 a.leaves x ^ 2)) := by
  rw [normPw, inner_value_partial (tolA := tolA) (dflt := dflt) hQ cc hfu sq h htol ht2 ht2' he he' hgap0 hgap other hl hu, bind_ok, pure_eq_ok]
  simp only [pow_two]

end C3.Pw

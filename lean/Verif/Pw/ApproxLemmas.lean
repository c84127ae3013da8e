/- Lemmas about adaptive piecewise approximation. -/
import Verif.Pw.Approx
import Verif.Pw.Props
import Verif.Pw.FinerGrid
import Verif.Poly.AdaptProps

set_option linter.unusedSectionVars false

namespace C3.Pw
open Finset
open C3.Poly (Ope Fam PT Rule)
variable {K : Type} [Field K] [LinearOrder K] [IsStrictOrderedRing K]

/-- The pieces cover `[l, u]` from left to right without gaps. -/
def Tiles (l u : K) : List (Ope K) → Prop
  | [] => l = u
  | f :: fs => f.lb = l ∧ l < f.ub ∧ Tiles f.ub u fs

theorem Tiles.append : ∀ {as bs : List (Ope K)} {l m u : K}, Tiles l m as → Tiles m u bs → Tiles l u (as ++ bs)
  | [], _, _, _, _, h1, h2 => by rw [Tiles] at h1; subst h1; exact h2
  | _ :: as, _, _, _, _, h1, h2 => ⟨h1.1, h1.2.1, h1.2.2.append h2⟩

theorem Tiles.le : ∀ {as : List (Ope K)} {l u : K}, Tiles l u as → l ≤ u
  | [], _, _, h => by rw [Tiles] at h; exact h.le
  | _ :: _, _, _, h => h.2.1.le.trans h.2.2.le

theorem Tiles.mem : ∀ {as : List (Ope K)} {l u : K}, Tiles l u as → ∀ f ∈ as, l ≤ f.lb ∧ f.lb < f.ub ∧ f.ub ≤ u
  | [], _, _, _, f, hf => by simp at hf
  | a :: as, l, u, h, f, hf => by
    rcases List.mem_cons.1 hf with rfl | hf
    · exact ⟨h.1.ge, by rw [h.1]; exact h.2.1, h.2.2.le⟩
    · obtain ⟨h1, h2, h3⟩ := h.2.2.mem f hf
      exact ⟨h.2.1.le.trans h1, h2, h3⟩

theorem Tiles.consec : ∀ {as : List (Ope K)} {l u : K}, Tiles l u as → Consec as
  | [], _, _, _ => ⟨List.IsChain.nil, by simp⟩
  | [f], _, _, h => ⟨List.isChain_singleton _, by
      intro g hg
      obtain rfl := List.mem_singleton.1 hg
      rw [h.1]; exact h.2.1⟩
  | f :: g :: as, l, u, h => by
    obtain ⟨c1, c2⟩ := Tiles.consec h.2.2
    refine ⟨List.isChain_cons_cons.2 ⟨h.2.2.1.symm, c1⟩, fun k hk => ?_⟩
    rcases List.mem_cons.1 hk with rfl | hk
    · rw [h.1]; exact h.2.1
    · exact c2 k hk

theorem Tiles.of_rel : ∀ {as bs : List (Ope K)} {l u : K}, Tiles l u as → List.Forall₂ (fun f g => g.lb = f.lb ∧ g.ub = f.ub) as bs → Tiles l u bs
  | _, _, _, _, h, .nil => h
  | _, _, _, _, h, .cons h1 ht => ⟨h1.1.trans h.1, by rw [h1.2]; exact h.2.1, by rw [h1.2]; exact h.2.2.of_rel ht⟩

/-- The first bound is that of the first piece, the last that of the last. -/
theorem Tiles.ends {as : List (Ope K)} {l u : K} (h : Tiles l u as) (h0 : as ≠ []) : (as.head h0).lb = l ∧ (as.getLast h0).ub = u := by
  induction as generalizing l with
  | nil => exact absurd rfl h0
  | cons a as ih =>
    refine ⟨h.1, ?_⟩
    by_cases c : as = []
    · subst c; exact h.2.2
    · rw [List.getLast_cons c]; exact (ih h.2.2 c).2

/-- A copy: the same bounds, mapping and coefficients. -/
structure CopyOf (f r : Ope K) : Prop where
  same : Same f r
  cf : ∀ k, r.cf k = f.cf k
  nalloc : r.nalloc = f.nalloc

theorem CopyOf.val {f r : Ope K} (h : CopyOf f r) (x : K) : r.val x = f.val x := C3.Poly.val_congr h.same.fam h.same.map h.cf x

/-- Usable pieces whose block holds `N` coefficients, those not used being zero. -/
structure Piece (N : Nat) (f : Ope K) : Prop where
  wf : f.WF
  krist : f.krist = false
  len : N ≤ f.nalloc
  raw : ∀ k < N, f.coeff.getD k 0 = f.cf k

/-- The piece is a copy of what `A` makes of its own interval. -/
def MadeBy (A : K → K → C (Ope K)) (f : Ope K) : Prop := ∃ g, A f.lb f.ub = .ok g ∧ CopyOf g f

theorem copy_piece {N : Nat} {f : Ope K} (hf : Piece N f) : ∃ r, C3.Poly.copy f = .ok r ∧ CopyOf f r ∧ Piece N r := by
  obtain ⟨c, e, l, v, z⟩ := C3.Poly.copyLoop_ok (n := f.num) (src := f.coeff) (dst := List.replicate f.nalloc (0 : K))
    (hf.wf.num_le.trans hf.wf.alloc_le) (by rw [List.length_replicate]; exact hf.wf.num_le)
  rw [List.length_replicate] at l
  have w : Ope.WF { f with coeff := c } := ⟨hf.wf.pos, hf.wf.num_le, by rw [l], hf.wf.cheb⟩
  have hcf : ∀ k, Ope.cf { f with coeff := c } k = f.cf k := fun k => by
    simp only [Ope.cf]
    split
    · rename_i hk; exact v k hk
    · rfl
  refine ⟨{ f with coeff := c }, ?_, ⟨⟨w, rfl, rfl, rfl, rfl, rfl⟩, hcf, rfl⟩, ⟨w, hf.krist, hf.len, fun k hk => ?_⟩⟩
  · rw [C3.Poly.copy, cassert_of (decide_eq_true hf.wf.num_le), bind_ok, e]; rfl
  · simp only [Ope.cf]
    by_cases c1 : k < f.num
    · rw [if_pos c1]
    · rw [if_neg c1, z k (by omega), List.getD_eq_getElem?_getD, List.getElem?_replicate]
      split <;> rfl

theorem linspaceK_ok (min max : K) {N : Nat} (h : 2 ≤ N) :
    ∃ l, linspaceK min max N = .ok l ∧ l.length = N ∧ ∀ i < N, l.getD i 0 = min + i * ((max - min) / ((N - 1 : Nat) : K)) := by
  obtain ⟨a, ea, la, va, -⟩ := C3.Poly.forN_window (n := N - 1) (off := 0) (a := List.replicate N (0 : K))
    (fun i _ => ((i : Nat) : K) * ((max - min) / ((N - 1 : Nat) : K)) + min) (by rw [List.length_replicate]; omega)
    (body := fun ii a => wr a ii (((ii : Nat) : K) * ((max - min) / ((N - 1 : Nat) : K)) + min))
    (fun i hi b hb => by
      rw [List.length_replicate] at hb
      rw [wr_ok _ (by omega), Nat.zero_add])
  rw [List.length_replicate] at la
  refine ⟨a.set (N - 1) max, ?_, by rw [List.length_set, la], fun i hi => ?_⟩
  · rw [linspaceK, ea, bind_ok, wr_ok _ (by omega)]
  · rw [List.getD_eq_getElem?_getD, List.getElem?_set]
    by_cases c : N - 1 = i
    · rw [if_pos c, if_pos (by omega), ← c]
      have h1 : ((N - 1 : Nat) : K) ≠ 0 := Nat.cast_ne_zero.2 (by omega)
      rw [mul_div_cancel₀ _ h1]; simp
    · rw [if_neg c]
      have := va i (by omega)
      rw [Nat.zero_add, List.getD_eq_getElem?_getD] at this
      rw [this, add_comm]

/-- The cells between increasing points. -/
theorem cells_ok {A : K → K → C (Ope K)} {N : Nat} {lo hi : K}
    (hA : ∀ l u, lo ≤ l → l < u → u ≤ hi → ∃ f, A l u = .ok f ∧ Piece N f ∧ f.lb = l ∧ f.ub = u) {pts : List K} {n : Nat} (hn : n + 1 = pts.length)
    (hp : ∀ i < n, pts.getD i 0 < pts.getD (i + 1) 0) (h0 : lo ≤ pts.getD 0 0) (h1 : pts.getD n 0 ≤ hi) :
    ∃ ls : List (Ope K), cells A pts n = .ok (ls.map Pw.leaf) ∧ ls.length = n ∧ Tiles (pts.getD 0 0) (pts.getD n 0) ls ∧
      ∀ i (h : i < ls.length), Piece N ls[i] ∧ A ls[i].lb ls[i].ub = .ok ls[i] ∧ ls[i].lb = pts.getD i 0 ∧ ls[i].ub = pts.getD (i + 1) 0 := by
  have mono : ∀ i j, i ≤ j → j ≤ n → pts.getD i 0 ≤ pts.getD j 0 := fun i j hij hj => by
    induction j, hij using Nat.le_induction with
    | base => exact le_rfl
    | succ j _ ih => exact (ih (by omega)).trans (hp j (by omega)).le
  obtain ⟨bs, e, ls, rfl, hl, ht, hg⟩ := forN_spec (n := n) (s := ([] : List (Pw K)))
    (body := fun ii bs => do
      let clb ← rd pts ii
      let cub ← rd pts (ii + 1)
      let f ← A clb cub
      pure (bs ++ [Pw.leaf f]))
    (I := fun m bs => ∃ ls : List (Ope K), bs = ls.map Pw.leaf ∧ ls.length = m ∧ Tiles (pts.getD 0 0) (pts.getD m 0) ls ∧
      ∀ i (h : i < ls.length), Piece N ls[i] ∧ A ls[i].lb ls[i].ub = .ok ls[i] ∧ ls[i].lb = pts.getD i 0 ∧ ls[i].ub = pts.getD (i + 1) 0)
    ⟨[], rfl, rfl, rfl, fun i hi => by simp at hi⟩
    (by
      rintro m hm _ ⟨ls, rfl, hl, ht, hg⟩
      obtain ⟨f, ef, pf, f1, f2⟩ := hA (pts.getD m 0) (pts.getD (m + 1) 0) (h0.trans (mono 0 m (by omega) (by omega))) (hp m hm)
        ((mono (m + 1) n (by omega) le_rfl).trans h1)
      refine ⟨_, by rw [rd_getD 0 (by omega), bind_ok, rd_getD 0 (by omega), bind_ok, ef, bind_ok]; rfl, ls ++ [f], by simp, by simp [hl],
        ht.append ⟨f1, by rw [f2]; exact hp m hm, f2⟩, fun i hi => ?_⟩
      rcases Nat.lt_or_eq_of_le (show i ≤ m by simp [hl] at hi; omega) with h2 | rfl
      · rw [List.getElem_append_left (by omega)]; exact hg i (by omega)
      · rw [List.getElem_append_right (by omega)]
        simp only [hl, Nat.sub_self, List.getElem_cons_zero]
        exact ⟨pf, by rw [f1, f2]; exact ef, f1, f2⟩)
  exact ⟨ls, e, hl, ht, hg⟩

/-- Splitting into `R` equal cells. -/
theorem approx1_even {A : K → K → C (Ope K)} {N : Nat} {lo hi : K}
    (hA : ∀ l u, lo ≤ l → l < u → u ≤ hi → ∃ f, A l u = .ok f ∧ Piece N f ∧ f.lb = l ∧ f.ub = u) {R : Nat} (hR : 2 ≤ R) {l u : K} (h0 : lo ≤ l) (hlu : l < u)
    (h1 : u ≤ hi) :
    ∃ ls : List (Ope K), approx1 A R none l u = .ok (.node (ls.map Pw.leaf)) ∧ ls.length = R ∧ Tiles l u ls ∧
      ∀ f ∈ ls, Piece N f ∧ A f.lb f.ub = .ok f ∧ f.ub - f.lb = (u - l) / R := by
  obtain ⟨p, ep, lp, vp⟩ := linspaceK_ok l u (N := R + 1) (by omega)
  rw [Nat.add_sub_cancel] at vp
  have hRp : (0 : K) < R := Nat.cast_pos.2 (by omega)
  have hd : 0 < (u - l) / R := div_pos (sub_pos.2 hlu) hRp
  have v0 : p.getD 0 0 = l := by rw [vp 0 (by omega)]; simp
  have vR : p.getD R 0 = u := by rw [vp R (by omega), mul_div_cancel₀ _ hRp.ne']; ring
  obtain ⟨ls, e, hl, ht, hg⟩ := cells_ok hA (pts := p) (n := R) (by omega)
    (fun i hi => by rw [vp i (by omega), vp (i + 1) (by omega)]; push_cast; linarith) (by rw [v0]; exact h0) (by rw [vR]; exact h1)
  rw [v0, vR] at ht
  refine ⟨ls, ?_, hl, ht, fun f hf => ?_⟩
  · rw [approx1, if_neg (by omega)]
    rw [ep, bind_ok, e, bind_ok]; rfl
  · obtain ⟨i, hi, rfl⟩ := List.getElem_of_mem hf
    obtain ⟨g1, g2, g3, g4⟩ := hg i hi
    refine ⟨g1, g2, ?_⟩
    rw [g3, g4, vp i (by omega), vp (i + 1) (by omega)]; push_cast; ring

/-- The test on the last coefficients. -/
theorem mustRefine_ok {check N : Nat} (tol : K) {f : Ope K} (hf : Piece N f) :
    ∃ b, mustRefine check N tol f = .ok b ∧ (b = false ↔ ∀ j < min check N, f.cf (N - 1 - j) * f.cf (N - 1 - j) ≤ tol) := by
  have hlen : N ≤ f.coeff.length := hf.len.trans hf.wf.alloc_le
  have hm : (if check < N then check else N) = min check N := by
    by_cases c : check < N
    · rw [if_pos c, min_eq_left c.le]
    · rw [if_neg c, min_eq_right (not_lt.1 c)]
  obtain ⟨b, e, h⟩ := forN_spec (n := min check N) (s := false) (body := fun jj b => if b then pure true
    else do
      let c ← rd f.coeff (N - 1 - jj)
      pure (decide (c * c > tol)))
    (I := fun m b => (b = false ↔ ∀ j < m, f.cf (N - 1 - j) * f.cf (N - 1 - j) ≤ tol))
    ⟨fun _ i hi => absurd hi (Nat.not_lt_zero _), fun _ => rfl⟩
    (by
      intro m hm b hb
      have hmN : m < N := lt_of_lt_of_le hm (min_le_right _ _)
      cases b with
      | true => exact ⟨true, rfl, ⟨fun h => (Bool.false_ne_true h.symm).elim, fun h => hb.2 fun i hi => h i (by omega)⟩⟩
      | false =>
        refine ⟨_, by rw [if_neg Bool.false_ne_true, rd_getD 0 (by omega), bind_ok, hf.raw _ (by omega)]; rfl, ?_⟩
        rw [decide_eq_false_iff_not, not_lt]
        exact ⟨fun h i hi => by
            rcases Nat.lt_or_eq_of_le (Nat.lt_succ_iff.1 hi) with h2 | rfl
            · exact hb.1 rfl i h2
            · exact h, fun h => h m (by omega)⟩)
  exact ⟨b, by rw [mustRefine, hm]; exact e, h⟩

theorem flat_map (ls : List (Ope K)) : (Pw.node (ls.map Pw.leaf)).isFlat = true := by
  simp [Pw.isFlat, Pw.isLeaf]

theorem flat_leaves : ∀ {bs : List (Pw K)}, bs.all Pw.isLeaf = true → bs = (leavesL bs).map Pw.leaf
  | [], _ => rfl
  | .leaf f :: bs, h => by
    rw [List.all_cons, Bool.and_eq_true] at h
    rw [leavesL, Pw.leaves, List.singleton_append, List.map_cons, ← flat_leaves h.2]
  | .node _ :: bs, h => by
    rw [List.all_cons, Bool.and_eq_true] at h
    cases h.1

/-- Flattening copies the pieces. -/
theorem flatten_pieces {N : Nat} {bs : List (Pw K)} (h : ∀ f ∈ leavesL bs, Piece N f) :
    ∃ ls : List (Ope K), (Pw.node bs).flatten = .ok (.node (ls.map Pw.leaf)) ∧ List.Forall₂ (fun f r => CopyOf f r ∧ Piece N r) (leavesL bs) ls := by
  rw [Pw.flatten.eq_def]
  by_cases c : (Pw.node bs).isFlat = true
  · rw [if_pos c]
    have := flat_leaves (bs := bs) c
    refine ⟨leavesL bs, by rw [← this], List.forall₂_same.2 fun f hf => ⟨⟨⟨(h f hf).wf, rfl, rfl, rfl, rfl, rfl⟩, fun _ => rfl, rfl⟩, h f hf⟩⟩
  · rw [if_neg c]
    obtain ⟨ls, hr, e⟩ := copyLeavesL_ok (R := fun f r => CopyOf f r ∧ Piece N r) bs (List.replicate (Pw.node bs).nregions none) 0
      (fun f hf => copy_piece (h f hf)) (by rw [List.length_replicate, nregions_value]; exact (Nat.zero_add _).le)
    refine ⟨ls, ?_, hr⟩
    dsimp only
    rw [e, bind_ok]
    dsimp only
    rw [List.take_zero, List.nil_append, List.drop_of_length_le (by rw [List.length_replicate, nregions_value, Nat.zero_add]; exact le_rfl), List.append_nil,
      show ls.map (fun f => some (Pw.leaf f)) = (ls.map Pw.leaf).map some by rw [List.map_map]; rfl, nonNull_ok]
    rfl

/-- A piece that is not split further: it is short, splitting is disabled, or its last coefficients are small. -/
def Accepted (o : PwOpts K) (f : Ope K) : Prop :=
  f.ub - f.lb < o.minsize ∨ o.nregions = 1 ∨ ∀ j < min o.check (o.maxorder + 1), f.cf (o.maxorder - j) * f.cf (o.maxorder - j) ≤ o.eps

theorem CopyOf.accepted {o : PwOpts K} {f r : Ope K} (h : CopyOf f r) : Accepted o r ↔ Accepted o f := by
  unfold Accepted
  rw [h.same.lb, h.same.ub]
  simp only [h.cf]

theorem CopyOf.trans {f g r : Ope K} (h1 : CopyOf f g) (h2 : CopyOf g r) : CopyOf f r :=
  ⟨⟨h2.same.wf, h2.same.krist.trans h1.same.krist, h2.same.lb.trans h1.same.lb, h2.same.ub.trans h1.same.ub, h2.same.fam.trans h1.same.fam,
    h2.same.map.trans h1.same.map⟩, fun k => (h2.cf k).trans (h1.cf k), h2.nalloc.trans h1.nalloc⟩

theorem MadeBy.copy {A : K → K → C (Ope K)} {f r : Ope K} (h : MadeBy A f) (c : CopyOf f r) : MadeBy A r := by
  obtain ⟨g, e, hg⟩ := h
  exact ⟨g, by rw [c.same.lb, c.same.ub]; exact e, hg.trans c⟩

/-- One pass over the pieces: refined pieces are split into `R` parts, the others are kept. -/
theorem adaptBranches_ok {A : K → K → C (Ope K)} {o : PwOpts K} {lo hi M : K}
    (hA : ∀ l u, lo ≤ l → l < u → u ≤ hi → ∃ f, A l u = .ok f ∧ Piece (o.maxorder + 1) f ∧ f.lb = l ∧ f.ub = u) (hR : 2 ≤ o.nregions) (hp : o.pts = none) :
    ∀ {ls : List (Ope K)} {l u : K}, Tiles l u ls → lo ≤ l → u ≤ hi → (∀ f ∈ ls, Piece (o.maxorder + 1) f ∧ MadeBy A f ∧ (Accepted o f ∨ f.ub - f.lb < M * o.nregions)) →
      ∃ bs b, adaptBranches A o (ls.map Pw.leaf) = .ok (bs, b) ∧ Tiles l u (leavesL bs) ∧
        (∀ f ∈ leavesL bs, Piece (o.maxorder + 1) f ∧ MadeBy A f ∧ (Accepted o f ∨ f.ub - f.lb < M)) ∧
        (b = false → ∀ f ∈ leavesL bs, Accepted o f)
  | [], l, u, ht, _, _, _ => ⟨[], false, rfl, ht, fun f hf => by simp [leavesL] at hf, fun _ f hf => by simp [leavesL] at hf⟩
  | f :: ls, l, u, ht, h0, h1, h => by
    obtain ⟨bs, b, e, ht2, g1, g2⟩ := adaptBranches_ok hA hR hp (ls := ls) ht.2.2 (h0.trans ht.2.1.le) h1 fun g hg => h g (List.mem_cons_of_mem _ hg)
    obtain ⟨pf, mf, af⟩ := h f (by simp)
    have keep : adaptBranch A o (.leaf f) = .ok (.leaf f, false) → Accepted o f →
        ∃ bs b, adaptBranches A o ((f :: ls).map Pw.leaf) = .ok (bs, b) ∧ Tiles l u (leavesL bs) ∧
        (∀ f ∈ leavesL bs, Piece (o.maxorder + 1) f ∧ MadeBy A f ∧ (Accepted o f ∨ f.ub - f.lb < M)) ∧
        (b = false → ∀ f ∈ leavesL bs, Accepted o f) := fun ef ac => by
      refine ⟨.leaf f :: bs, b, by rw [List.map_cons, adaptBranches, ef, bind_ok, e, bind_ok]; rfl, ⟨ht.1, ht.2.1, ht2⟩, fun g hg => ?_, fun hb g hg => ?_⟩
      · rcases List.mem_cons.1 hg with rfl | hg
        · exact ⟨pf, mf, .inl ac⟩
        · exact g1 g hg
      · rcases List.mem_cons.1 hg with rfl | hg
        · exact ac
        · exact g2 hb g hg
    by_cases c : f.ub - f.lb < o.minsize ∨ o.nregions = 1
    · exact keep (by rw [adaptBranch, if_pos c]; rfl) (c.elim .inl fun c => .inr (.inl c))
    · obtain ⟨r, er, hr⟩ := mustRefine_ok (check := o.check) (o.eps * 1) pf
      rw [mul_one] at hr
      cases r with
      | false =>
        refine keep (by rw [adaptBranch, if_neg c, er, bind_ok]; rfl) (.inr (.inr fun j hj => ?_))
        have := hr.1 rfl j hj
        rwa [Nat.add_sub_cancel] at this
      | true =>
        have nac : ¬ Accepted o f := by
          rintro (a | a | a)
          · exact c (.inl a)
          · exact c (.inr a)
          · exact Bool.false_ne_true (hr.2 fun j hj => by rw [Nat.add_sub_cancel]; exact a j hj).symm
        have hlb : f.lb = l := ht.1
        obtain ⟨ms, em, -, tm, gm⟩ := approx1_even hA hR (l := f.lb) (u := f.ub) (by rw [hlb]; exact h0) (by rw [hlb]; exact ht.2.1) (ht.2.2.le.trans h1)
        rw [hlb] at tm
        have hRp : (0 : K) < o.nregions := Nat.cast_pos.2 (by omega)
        refine ⟨.node (ms.map Pw.leaf) :: bs, true, ?_, ?_, fun g hg => ?_, fun hb => (Bool.false_ne_true hb.symm).elim⟩
        · rw [List.map_cons, adaptBranches, adaptBranch, if_neg c, er, bind_ok, if_pos rfl, hp, em, bind_ok, pure_eq_ok, bind_ok, e, bind_ok]; rfl
        · rw [leavesL, Pw.leaves, leavesL_map_leaf]
          exact tm.append ht2
        · rw [leavesL, Pw.leaves, leavesL_map_leaf] at hg
          rcases List.mem_append.1 hg with hg | hg
          · obtain ⟨a1, a2, a3⟩ := gm g hg
            refine ⟨a1, ⟨g, a2, ⟨⟨a1.wf, rfl, rfl, rfl, rfl, rfl⟩, fun _ => rfl, rfl⟩⟩, .inr ?_⟩
            rw [a3, div_lt_iff₀ hRp]
            exact af.resolve_left nac
          · exact g1 g hg

/-- The recursion ends when the pieces are short enough. -/
theorem adaptHelp_ok {A : K → K → C (Ope K)} {o : PwOpts K} {lo hi : K}
    (hA : ∀ l u, lo ≤ l → l < u → u ≤ hi → ∃ f, A l u = .ok f ∧ Piece (o.maxorder + 1) f ∧ f.lb = l ∧ f.ub = u) (hR : 2 ≤ o.nregions) (hp : o.pts = none) :
    ∀ (fuel : Nat) {ls : List (Ope K)} {l u : K}, Tiles l u ls → lo ≤ l → u ≤ hi → ls ≠ [] →
      (∀ f ∈ ls, Piece (o.maxorder + 1) f ∧ MadeBy A f ∧ (Accepted o f ∨ f.ub - f.lb < o.minsize * (o.nregions : K) ^ fuel)) →
      ∃ ms : List (Ope K), adaptHelp A o (fuel + 1) (.node (ls.map Pw.leaf)) = .ok (.node (ms.map Pw.leaf)) ∧ Tiles l u ms ∧ ms ≠ [] ∧
        ∀ f ∈ ms, Piece (o.maxorder + 1) f ∧ MadeBy A f ∧ Accepted o f := by
  intro fuel
  induction fuel with
  | zero =>
    intro ls l u ht h0 h1 hne h
    have full : (Pw.node (ls.map Pw.leaf)).Full := ⟨by simpa using hne, fullL_map_leaf ls⟩
    have acc : ∀ f ∈ ls, Accepted o f := fun f hf => (h f hf).2.2.elim id fun a => .inl (by simpa using a)
    have eb : ∀ ls : List (Ope K), (∀ f ∈ ls, Piece (o.maxorder + 1) f ∧ Accepted o f) → adaptBranches A o (ls.map Pw.leaf) = .ok (ls.map Pw.leaf, false) := by
      intro ls hls
      induction ls with
      | nil => rfl
      | cons f ls ih =>
        obtain ⟨pf, af⟩ := hls f (by simp)
        have : adaptBranch A o (.leaf f) = .ok (.leaf f, false) := by
          rw [adaptBranch]
          by_cases c : f.ub - f.lb < o.minsize ∨ o.nregions = 1
          · rw [if_pos c]; rfl
          · rw [if_neg c]
            obtain ⟨r, er, hr⟩ := mustRefine_ok (check := o.check) (o.eps * 1) pf
            rw [mul_one] at hr
            rw [er, bind_ok, hr.2 fun j hj => by
              rw [Nat.add_sub_cancel]
              rcases af with a | a | a
              · exact absurd (.inl a) c
              · exact absurd (.inr a) c
              · exact a j hj]
            rfl
        rw [List.map_cons, adaptBranches, this, bind_ok, ih fun g hg => hls g (List.mem_cons_of_mem _ hg), bind_ok]; rfl
    refine ⟨ls, ?_, ht, hne, fun f hf => ⟨(h f hf).1, (h f hf).2.1, acc f hf⟩⟩
    rw [adaptHelp, lb_ok full, bind_ok, ub_ok full, bind_ok, eb ls fun f hf => ⟨(h f hf).1, acc f hf⟩, bind_ok]
    dsimp only
    rw [Pw.flatten.eq_def, if_pos (flat_map ls), bind_ok, if_neg Bool.false_ne_true]; rfl
  | succ fuel ih =>
    intro ls l u ht h0 h1 hne h
    have full : (Pw.node (ls.map Pw.leaf)).Full := ⟨by simpa using hne, fullL_map_leaf ls⟩
    obtain ⟨bs, b, eb, tb, gb, ab⟩ := adaptBranches_ok (M := o.minsize * (o.nregions : K) ^ fuel) hA hR hp ht h0 h1
      (fun f hf => ⟨(h f hf).1, (h f hf).2.1, (h f hf).2.2.imp id fun a => by rw [mul_assoc, ← pow_succ]; exact a⟩)
    obtain ⟨ms, em, rm⟩ := flatten_pieces (N := o.maxorder + 1) fun f hf => (gb f hf).1
    have tm : Tiles l u ms := tb.of_rel (rm.imp fun _ _ h => ⟨h.1.same.lb, h.1.same.ub⟩)
    have get : ∀ g ∈ ms, ∃ f ∈ leavesL bs, CopyOf f g ∧ Piece (o.maxorder + 1) g := fun g hg => by
      obtain ⟨i, hi, rfl⟩ := List.getElem_of_mem hg
      have hi' : i < (leavesL bs).length := by rw [rm.length_eq]; exact hi
      exact ⟨_, List.getElem_mem hi', rm.get hi' hi⟩
    have hlu : l < u := by
      cases ls with
      | nil => exact absurd rfl hne
      | cons f ls => exact ht.2.1.trans_le ht.2.2.le
    have mne : ms ≠ [] := by
      rintro rfl
      rw [Tiles] at tm
      exact absurd tm hlu.ne
    have start : adaptHelp A o (fuel + 1 + 1) (.node (ls.map Pw.leaf)) = if b then adaptHelp A o (fuel + 1) (.node (ms.map Pw.leaf)) else .ok (.node (ms.map Pw.leaf)) := by
      rw [adaptHelp, lb_ok full, bind_ok, ub_ok full, bind_ok, eb, bind_ok]
      dsimp only
      rw [em, bind_ok]; rfl
    cases b with
    | false =>
      refine ⟨ms, by rw [start, if_neg Bool.false_ne_true], tm, mne, fun g hg => ?_⟩
      obtain ⟨f, hf, cf, pg⟩ := get g hg
      exact ⟨pg, (gb f hf).2.1.copy cf, cf.accepted.2 (ab rfl f hf)⟩
    | true =>
      obtain ⟨ns, en, tn, nne, gn⟩ := ih (ls := ms) tm h0 h1 mne fun g hg => by
        obtain ⟨f, hf, cf, pg⟩ := get g hg
        refine ⟨pg, (gb f hf).2.1.copy cf, (gb f hf).2.2.imp cf.accepted.2 fun a => ?_⟩
        rw [cf.same.lb, cf.same.ub]; exact a
      exact ⟨ns, by rw [start, if_pos rfl]; exact en, tn, nne, gn⟩

end C3.Pw

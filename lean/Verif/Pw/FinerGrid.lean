/- Reapproximation of a piecewise polynomial on a finer partition (property C77). -/
import Verif.Pw.MatchNodes
import Verif.Pw.IntProps
import Verif.Poly.AdaptGauss

set_option linter.unusedSectionVars false

namespace C3.Pw
open C3.Poly (Ope legFam OnInt Rule PT IsGaussLeg)

theorem Consec.get_le {ls : List (Ope ℝ)} (h : Consec ls) {i j : Nat} (hi : i < ls.length) (hj : j < ls.length) (hij : i < j) : ls[i].ub ≤ ls[j].lb := by
  have hc := List.isChain_iff_getElem.1 h.1 (j - 1) (by omega)
  simp only [show j - 1 + 1 = j by omega] at hc
  rw [← hc]
  rcases Nat.lt_or_eq_of_le (show i ≤ j - 1 by omega) with h2 | rfl
  · exact (List.pairwise_iff_getElem.1 h.pairwise i (j - 1) hi (by omega) h2).le
  · exact le_rfl

theorem pieceVal_cons {tol x : ℝ} {f : Ope ℝ} {l : List (Ope ℝ)} : pieceVal tol (f :: l) x = if x < f.ub + tol then f.val x else pieceVal tol l x := by
  by_cases c : x < f.ub + tol <;> simp [pieceVal, List.find?_cons, c]

/-- The piece that is evaluated. -/
theorem pieceVal_at {tol x : ℝ} {ls : List (Ope ℝ)} (h : Consec ls) {k : Nat} (hk : k < ls.length) (h1 : x < ls[k].ub + tol) (h2 : 1 ≤ k → ls[k].lb + tol ≤ x) :
    pieceVal tol ls x = ls[k].val x := by
  have : ls.find? (fun f => decide (x < f.ub + tol)) = some ls[k] := by
    rw [List.find?_eq_some_iff_getElem]
    refine ⟨by simpa using h1, k, hk, rfl, fun j hj => ?_⟩
    have := h.get_le (show j < ls.length by omega) hk hj
    have h3 := h2 (by omega)
    simp only [decide_eq_true_eq, not_lt, Bool.not_eq_true', decide_eq_false_iff_not]
    linarith
  rw [pieceVal, this]; rfl

theorem eval_at {tol dflt x : ℝ} (sq : ℝ → ℝ) {p : Pw ℝ} (h : p.Ok) {f : Ope ℝ} (hf : f ∈ p.leaves) (h1 : f.lb + tol ≤ x) (h2 : x < f.ub + tol) :
    p.eval tol dflt sq x = .ok (f.val x) := by
  obtain ⟨k, hk, rfl⟩ := List.getElem_of_mem hf
  obtain ⟨-, -, -, -, -, e⟩ := eval_leaf (tol := tol) (dflt := dflt) sq h (u := (p.leaves.getLast (leaves_ne h.full)).ub) (x := x) (ub_ok h.full)
    (by have := last_max h.consec.pairwise (leaves_ne h.full) hf; linarith)
  rw [e, pieceVal_at h.consec hk h2 fun _ => h1]

/-- Every cell of a refinement lies in one piece. -/
theorem cell_leaf {ls : List (Ope ℝ)} (h : Consec ls) (h0 : ls ≠ []) {ns : List ℝ} (hs : ns.Pairwise (· < ·)) (hn : 0 < ns.length) (hlo : (ls.head h0).lb = ns[0])
    (hmem : ∀ f ∈ ls, f.ub ∈ ns) (hhi : (ls.getLast h0).ub = ns[ns.length - 1]) {i : Nat} (hi : i + 1 < ns.length) :
    ∃ k, ∃ hk : k < ls.length, ls[k].lb ≤ ns[i] ∧ ns[i + 1] ≤ ls[k].ub := by
  have mono : ∀ {i j : Nat} (hi : i < ns.length) (hj : j < ns.length), i ≤ j → ns[i] ≤ ns[j] := fun {i j} hi hj hij => by
    rcases Nat.lt_or_eq_of_le hij with h2 | rfl
    · exact (List.pairwise_iff_getElem.1 hs i j hi hj h2).le
    · exact le_rfl
  have hex : ∃ k, ∃ hk : k < ls.length, ns[i] < ls[k].ub := by
    have hl := List.length_pos_of_ne_nil h0
    refine ⟨ls.length - 1, by omega, ?_⟩
    rw [← List.getLast_eq_getElem h0, hhi]
    exact List.pairwise_iff_getElem.1 hs _ _ _ _ (by omega)
  classical
  let k := Nat.find hex
  obtain ⟨hk, h1⟩ := Nat.find_spec hex
  refine ⟨k, hk, ?_, ?_⟩
  · by_cases c : k = 0
    · have : ls[k]'hk = ls.head h0 := by rw [List.head_eq_getElem]; congr 1
      rw [this, hlo]
      exact mono _ _ (Nat.zero_le _)
    · have h2 := Nat.find_min hex (m := k - 1) (by show k - 1 < k; omega)
      have hc := List.isChain_iff_getElem.1 h.1 (k - 1) (by show k - 1 + 1 < ls.length; have : k < ls.length := hk; omega)
      simp only [show k - 1 + 1 = k by omega] at hc
      rw [← hc]
      by_contra h3
      exact h2 ⟨by have : k < ls.length := hk; omega, not_le.1 h3⟩
  · obtain ⟨m, hm, em⟩ := List.getElem_of_mem (hmem (ls[k]'hk) (List.getElem_mem _))
    rw [← em]
    have h1' : ns[i] < ns[m] := by rw [em]; exact h1
    refine mono _ _ ?_
    by_contra c
    exact absurd h1' (not_lt.2 (mono _ _ (by omega)))

theorem pwEvalVec_ok {ev : ℝ → C ℝ} {g : ℝ → ℝ} : ∀ (l : List ℝ), (∀ x ∈ l, ev x = .ok (g x)) → pwEvalVec ev l = .ok (some (l.map g))
  | [], _ => rfl
  | x :: xs, h => by
    rw [pwEvalVec, h x (by simp), bind_ok, pwEvalVec_ok xs fun y hy => h y (by simp [hy]), bind_ok]; rfl

/-- Legendre expansions with the mapping of their interval. -/
structure LegLeaf (f : Ope ℝ) : Prop where
  fam : f.fam = legFam
  int : OnInt f
  inv : f.map.Inv

theorem LegLeaf.map_eq {f g : Ope ℝ} (hf : LegLeaf f) (hg : LegLeaf g) (hl : f.lb = g.lb) (hu : f.ub = g.ub) : f.map = g.map := by
  have e1 : f.map.slope = g.map.slope := by rw [hf.int.slope, hg.int.slope, hl, hu]
  have e2 : f.map.off = g.map.off := by have := hf.int.lo; have := hg.int.lo; rw [e1, hl] at *; linarith
  have n := hg.inv.slope_ne
  have e3 : f.map.islope = g.map.islope := by
    have a := hf.inv.mul; have b := hg.inv.mul
    rw [e1] at a
    exact mul_left_cancel₀ n (a.trans b.symm)
  have e4 : f.map.ioff = g.map.ioff := by
    have a := hf.inv.off; have b := hg.inv.off
    rw [e1, e2] at a
    refine mul_left_cancel₀ n (by linarith)
  cases hfm : f.map; cases hgm : g.map
  rw [hfm, hgm] at e1 e2 e3 e4
  simp only at e1 e2 e3 e4
  rw [e1, e2, e3, e4]

/-- The function of an expansion is a polynomial of degree below the number of its basis functions. -/
theorem val_poly {f : Ope ℝ} (hfam : f.fam = legFam) : ∃ P : Polynomial ℝ, P.degree < f.num ∧ ∀ x, f.val x = P.eval (f.map.slope * x + f.map.off) := by
  have hl := C3.Poly.legFam_lead
  choose P p1 p2 p3 using C3.Poly.p_poly hl.1 hl.2.1 hl.2.2
  refine ⟨∑ k ∈ Finset.range f.num, Polynomial.C (f.coeff.getD k 0) * P k, ?_, fun x => ?_⟩
  · refine lt_of_le_of_lt (Polynomial.degree_sum_le _ _) ?_
    refine (Finset.sup_lt_iff (WithBot.bot_lt_coe f.num)).2 fun k hk => ?_
    refine lt_of_le_of_lt Polynomial.degree_le_natDegree ?_
    have := lt_of_le_of_lt ((Polynomial.natDegree_C_mul_le (f.coeff.getD k 0) (P k)).trans (p1 k)) (Finset.mem_range.1 hk)
    exact WithBot.coe_lt_coe.2 this
  · rw [Polynomial.eval_finsetSum, Ope.val, hfam]
    exact Finset.sum_congr rfl fun k _ => by rw [Polynomial.eval_mul, Polynomial.eval_C, p3]

/-- The rules used, all up to 199 points: Gauss rules with points inside the interval, not closer than `gap` to its left end. -/
structure GoodRules (Q : PT → Nat → Rule ℝ) (gap : ℝ) : Prop where
  gauss : ∀ n, IsGaussLeg n (Q .leg n)
  pts : ∀ n ≤ 199, ∀ x ∈ (Q .leg n).pts, gap ≤ 1 + x ∧ x < 1

/-- The expansion on one cell is the polynomial it comes from. -/
theorem legAdapt_ok {Q : PT → Nat → Rule ℝ} {gap tol tolA l u : ℝ} (hQ : GoodRules Q gap) (cc : Nat → Rule ℝ)
    {fuel : Nat} (hfu : 30 ≤ fuel) (hlu : l < u) (hg : tol ≤ gap * (u - l) / 2) {ev : ℝ → C ℝ} {f : Ope ℝ} (hf : f.fam = legFam) (hn : f.num ≤ 8)
    (hev : ∀ x, l + tol ≤ x → x < u → ev x = .ok (f.val x)) :
    ∃ r, legAdapt legFam 0 tolA Q cc fuel l u ev = .ok r ∧ r.WF ∧ LegLeaf r ∧ r.lb = l ∧ r.ub = u ∧ r.krist = false ∧ r.num ≤ 198 ∧ ∀ x, r.val x = f.val x := by
  let o : C3.Poly.Opts ℝ := ⟨legFam, 8, 100, 2, tolA, l, u, 0, 1, true, false, false⟩
  have hpt : o.fam.pt ≠ .herm := by show legFam.pt ≠ .herm; simp [legFam]
  have hlo : legFam.lower = -1 := rfl
  have hup : legFam.upper = 1 := rfl
  have hv : o.Valid := ⟨fun c => absurd c hpt, fun _ => ⟨by show legFam.lower < legFam.upper; rw [hlo, hup]; norm_num, hlu⟩, fun c => by cases c⟩
  obtain ⟨p, ep, p1, p2, p3, p4, p5, p6, p7, p8, p9, p10, p11, -, -⟩ := C3.Poly.init_map o.fam o.start hpt (hv.other hpt).1 (hv.other hpt).2
  have ei : C3.Poly.initOpts o o.start = .ok { p with krist := o.krist } := C3.Poly.initOpts_other o o.start hpt ep
  have hslope : p.map.slope * (u - l) = 2 := by
    have a : p.map.slope * l + p.map.off = -1 := p6
    have b : p.map.slope * u + p.map.off = 1 := p7
    linarith
  obtain ⟨P, hP, hPv⟩ := val_poly hf
  -- the polynomial in the variable of the cell
  let R : Polynomial ℝ := P.comp (Polynomial.C (f.map.slope * p.map.islope) * Polynomial.X + Polynomial.C (f.map.slope * p.map.ioff + f.map.off))
  have hR : ∀ x, R.eval (p.map.slope * x + p.map.off) = f.val x := fun x => by
    have hx : p.map.islope * (p.map.slope * x + p.map.off) + p.map.ioff = x := p8.left x
    rw [hPv, Polynomial.eval_comp, Polynomial.eval_add, Polynomial.eval_mul, Polynomial.eval_C, Polynomial.eval_X, Polynomial.eval_C]
    congr 1
    linear_combination f.map.slope * hx
  have hRd : R.degree < o.start := by
    refine lt_of_le_of_lt Polynomial.degree_le_natDegree ?_
    have h5 : (Polynomial.C (f.map.slope * p.map.islope) * Polynomial.X + Polynomial.C (f.map.slope * p.map.ioff + f.map.off)).natDegree ≤ 1 := Polynomial.natDegree_linear_le
    have h4 := Polynomial.natDegree_comp_le (p := P) (q := Polynomial.C (f.map.slope * p.map.islope) * Polynomial.X + Polynomial.C (f.map.slope * p.map.ioff + f.map.off))
    have h6 := Nat.mul_le_mul_left P.natDegree h5
    rcases eq_or_ne P 0 with h0 | h0
    · have : R = 0 := by simp [R, h0]
      rw [this, Polynomial.natDegree_zero]
      exact_mod_cast (show 0 < 8 by omega)
    · have h3 : P.natDegree < f.num := by rwa [Polynomial.natDegree_lt_iff_degree_lt h0]
      exact_mod_cast (show R.natDegree < 8 by show (P.comp _).natDegree < 8; omega)
  have hl := C3.Poly.legFam_lead
  obtain ⟨f', r, e', er, rw', rf, rm, rl, ru, rk, rn, rv⟩ := C3.Poly.approxAdapt_local (thr := 0) (Q := Q) (cc := cc) (F := pwEvalVec ev) (g := f.val)
    (D := fun x => l + tol ≤ x ∧ x < u) (fun xs h => pwEvalVec_ok xs fun x hx => hev x (h x hx).1 (h x hx).2) (o := o) hv rfl (.inr rfl)
    (fun f' e' n hn x hx => by
      rw [ei] at e'
      have e' := Except.ok.inj e'
      subst e'
      obtain ⟨g1, g2⟩ := hQ.pts n hn x hx
      have hin : p.map.slope * p.map.inv x + p.map.off = x := p11 x
      have a : p.map.slope * l + p.map.off = -1 := p6
      have b : p.map.slope * u + p.map.off = 1 := p7
      refine ⟨?_, ?_⟩
      · have h3 : p.map.slope * (p.map.inv x - l) = 1 + x := by linarith
        have h4 : p.map.slope * tol ≤ p.map.slope * (p.map.inv x - l) := by
          rw [h3]
          refine le_trans ?_ g1
          have := mul_le_mul_of_nonneg_left hg p9.le
          have h5 : p.map.slope * (gap * (u - l) / 2) = gap := by linear_combination gap / 2 * hslope
          linarith
        have := le_of_mul_le_mul_left h4 p9
        show l + tol ≤ p.map.inv x
        linarith
      · show p.map.inv x < u
        have h3 : p.map.slope * (p.map.inv x) < p.map.slope * u := by linarith
        exact lt_of_mul_lt_mul_left h3 p9.le)
    (fun n => ⟨(hQ.gauss n).pts, (hQ.gauss n).wts⟩) (fun k => by show legFam.norm k ≠ 0; exact one_ne_zero) hl.1 hl.2.1 hl.2.2
    (fun n => C3.Poly.legDiscOrth (hQ.gauss (n + 1)) (by omega)) (by show 1 ≤ 8; omega) (by show 8 ≤ 191; omega) (by show 2 ≤ 8; omega) hfu R hRd
    (fun f' e' x _ => by
      rw [ei] at e'
      have e' := Except.ok.inj e'
      subst e'
      exact (hR x).symm)
  rw [ei] at e'
  have e' := Except.ok.inj e'
  subst e'
  have rm' : r.map = p.map := rm
  have rl' : r.lb = l := rl.trans p3
  have ru' : r.ub = u := ru.trans p4
  refine ⟨r, er, rw', ⟨rf.trans p1, ⟨by rw [rl', ru']; exact hlu, by rw [rm', rl']; exact p6, by rw [rm', ru']; exact p7, by rw [rm', mul_comm]; exact p8.mul⟩, by rw [rm']; exact p8⟩,
    rl', ru', rk, rn, fun x => (rv x).trans (hR x)⟩

/-- C77: on a refinement of the partition, with cells long enough for the margin of the evaluation, the reapproximation is the same function (pieces of degree below 8). -/
theorem finerGrid_ok {Q : PT → Nat → Rule ℝ} {gap tol tolA dflt : ℝ} (hQ : GoodRules Q gap) (cc : Nat → Rule ℝ)
    {fuel : Nat} (hfu : 30 ≤ fuel) (sq : ℝ → ℝ) {p : Pw ℝ} (h : p.Ok) (hfam : ∀ f ∈ p.leaves, f.fam = legFam) (hnum : ∀ f ∈ p.leaves, f.num ≤ 8)
    {ns : List ℝ} (hs : ns.Pairwise (· < ·)) (hn : 3 ≤ ns.length) (hlo : (p.leaves.head (leaves_ne h.full)).lb = ns[0])
    (hmem : ∀ f ∈ p.leaves, f.ub ∈ ns) (hhi : (p.leaves.getLast (leaves_ne h.full)).ub = ns[ns.length - 1]) (htol : 0 ≤ tol)
    (hcell : ∀ i (hi : i + 1 < ns.length), tol ≤ gap * (ns[i + 1] - ns[i]) / 2) :
    ∃ gs : List (Ope ℝ), finerGrid (legAdapt legFam 0 tolA Q cc fuel) (fun p x => p.eval tol dflt sq x) p ns = .ok (.node (gs.map Pw.leaf)) ∧
      gs.length = ns.length - 1 ∧ (∀ i (hi : i < gs.length) (hin : i + 1 < ns.length),
        gs[i].WF ∧ LegLeaf gs[i] ∧ gs[i].krist = false ∧ gs[i].lb = ns[i] ∧ gs[i].ub = ns[i + 1]) ∧
      ∀ t x, pieceVal t gs x = pieceVal t p.leaves x := by
  obtain ⟨bs, e, gs, rfl, hl, hg⟩ := forN_spec (n := ns.length - 1) (s := ([] : List (Pw ℝ)))
    (body := fun ii bs => do
      let l ← rd ns ii
      let u ← rd ns (ii + 1)
      let f ← legAdapt legFam 0 tolA Q cc fuel l u (p.eval tol dflt sq)
      pure (bs ++ [Pw.leaf f]))
    (I := fun m bs => ∃ gs : List (Ope ℝ), bs = gs.map Pw.leaf ∧ gs.length = m ∧ ∀ i (hi : i < gs.length) (hin : i + 1 < ns.length),
      gs[i].WF ∧ LegLeaf gs[i] ∧ gs[i].krist = false ∧ gs[i].lb = ns[i] ∧ gs[i].ub = ns[i + 1] ∧
      ∃ k, ∃ hk : k < p.leaves.length, p.leaves[k].lb ≤ ns[i] ∧ ns[i + 1] ≤ p.leaves[k].ub ∧ ∀ x, gs[i].val x = p.leaves[k].val x)
    ⟨[], rfl, rfl, fun i hi => by simp at hi⟩
    (by
      rintro m hm _ ⟨gs, rfl, hl, hg⟩
      have hlt : ns[m]'(by omega) < ns[m + 1]'(by omega) := List.pairwise_iff_getElem.1 hs _ _ _ _ (by omega)
      obtain ⟨k, hk, k1, k2⟩ := cell_leaf h.consec (leaves_ne h.full) hs (by omega) hlo hmem hhi (i := m) (by omega)
      obtain ⟨r, er, r1, r2, r3, r4, r5, -, r6⟩ := legAdapt_ok (tolA := tolA) hQ cc hfu hlt (hcell m (by omega)) (ev := p.eval tol dflt sq) (f := p.leaves[k])
        (hfam _ (List.getElem_mem _)) (hnum _ (List.getElem_mem _)) (fun x h1 h2 => eval_at sq h (List.getElem_mem _) (by linarith) (by linarith))
      refine ⟨_, by rw [rd_getElem (show m < ns.length by omega), bind_ok, rd_getElem (show m + 1 < ns.length by omega), bind_ok, er, bind_ok]; rfl,
        gs ++ [r], by simp, by simp [hl], fun i hi hin => ?_⟩
      rcases Nat.lt_or_eq_of_le (show i ≤ m by simp [hl] at hi; omega) with h2 | rfl
      · rw [List.getElem_append_left (by omega)]; exact hg i (by omega) hin
      · rw [List.getElem_append_right (by omega)]
        simp only [hl, Nat.sub_self, List.getElem_cons_zero]
        exact ⟨r1, r2, r5, r3, r4, k, hk, k1, k2, r6⟩)
  have hg' : ∀ i (hi : i < gs.length), gs[i].WF ∧ LegLeaf gs[i] ∧ gs[i].krist = false ∧ gs[i].lb = ns[i]'(by omega) ∧ gs[i].ub = ns[i + 1]'(by omega) ∧
      ∃ k, ∃ hk : k < p.leaves.length, p.leaves[k].lb ≤ ns[i]'(by omega) ∧ ns[i + 1]'(by omega) ≤ p.leaves[k].ub ∧ ∀ x, gs[i].val x = p.leaves[k].val x :=
    fun i hi => hg i hi (by omega)
  refine ⟨gs, ?_, hl, fun i hi _ => ?_, fun t x => ?_⟩
  · rw [finerGrid.eq_def, if_neg (by omega), e]; rfl
  · obtain ⟨a, b, c, d, e, -⟩ := hg' i hi
    exact ⟨a, b, c, d, e⟩
  · cases hfd : gs.find? (fun f => decide (x < f.ub + t)) with
    | none =>
      have : p.leaves.find? (fun f => decide (x < f.ub + t)) = none := by
        rw [List.find?_eq_none] at hfd ⊢
        intro f hf
        have h1 := last_max h.consec.pairwise (leaves_ne h.full) hf
        have h2 := hfd gs[gs.length - 1] (List.getElem_mem (by omega))
        obtain ⟨-, -, -, -, e5, -⟩ := hg' (gs.length - 1) (by omega)
        simp only [hl, show ns.length - 1 - 1 + 1 = ns.length - 1 by omega] at e5
        simp only [hl] at h2
        rw [e5, ← hhi] at h2
        simp only [decide_eq_true_eq, not_lt] at h2 ⊢
        linarith
      rw [pieceVal, pieceVal, hfd, this]
    | some g =>
      have hfd' := hfd
      rw [List.find?_eq_some_iff_getElem] at hfd
      obtain ⟨h1, i, hi, rfl, h2⟩ := hfd
      obtain ⟨-, -, -, e4, e5, k, hk, k1, k2, k3⟩ := hg' i hi
      have h1 : x < gs[i].ub + t := by simpa using h1
      rw [pieceVal, hfd']
      show gs[i].val x = _
      rw [k3, pieceVal_at h.consec hk (by rw [e5] at h1; linarith) fun hk1 => ?_]
      by_cases c : i = 0
      · subst c
        have h3 := h.consec.get_le (show 0 < p.leaves.length by omega) hk (by omega)
        have h4 := h.consec.2 p.leaves[0] (List.getElem_mem _)
        rw [List.head_eq_getElem] at hlo
        linarith
      · have h3 := h2 (i - 1) (by omega)
        obtain ⟨-, -, -, -, e5', -⟩ := hg' (i - 1) (by omega)
        simp only [show i - 1 + 1 = i by omega] at e5'
        rw [e5'] at h3
        simp only [not_lt, Bool.not_eq_true', decide_eq_false_iff_not] at h3
        linarith

end C3.Pw

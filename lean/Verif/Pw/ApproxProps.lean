/-
C122: adaptive piecewise approximation. Specification: the pieces tile the requested interval, each is the (rounded) projection of the
function on its own cell, none needs further splitting, the recursion ends, and the function is only evaluated inside the interval.
-/
import Verif.Pw.ApproxLemmas
import Verif.Poly.AdaptGauss
import Verif.Pw.MatchEx

set_option linter.unusedSectionVars false

namespace C3.Pw
open Finset
open C3.Poly (Ope Fam PT Rule IsProj Rounded legFam chebFam IsGaussLeg)
variable {K : Type} [Field K] [LinearOrder K] [IsStrictOrderedRing K]

/-- After rounding the coefficients that were cut off are zero. -/
theorem round_clean {thr : K} {f r : Ope K} (h : 1 ≤ f.num) (hl : f.num ≤ f.coeff.length) (e : C3.Poly.round thr f = .ok r) :
    ∀ k < f.num, r.coeff.getD k 0 = r.cf k := by
  obtain ⟨m, em, -, -⟩ := C3.Poly.maxAbs_ok h hl
  obtain ⟨s, es, s1, s2, s3⟩ := C3.Poly.roundCut_ok thr (m * f.num) hl
  have fin : ∀ n, (∀ k, n ≤ k → k < f.num → s.1.getD k 0 = 0) → ∀ k < f.num,
      ({ f with num := n, coeff := s.1 } : Ope K).coeff.getD k 0 = ({ f with num := n, coeff := s.1 } : Ope K).cf k := fun n hz k hk => by
    simp only [Ope.cf]
    by_cases c : k < n
    · rw [if_pos c]
    · rw [if_neg c]; exact hz k (not_lt.1 c) hk
  rw [C3.Poly.round, em, bind_ok, es, bind_ok, C3.Poly.roundNum] at e
  by_cases ha : s.2 = true
  · rw [if_pos ha, bind_ok] at e
    rw [← Except.ok.inj e]
    exact fin 1 fun k _ hk => by rw [s2 k hk, C3.Poly.cut, if_pos (s3 ha k hk)]
  · rw [if_neg ha] at e
    by_cases hn : f.num > 2
    · rw [if_pos hn] at e
      obtain ⟨t, et, e1, e2, e3⟩ := C3.Poly.trimEnd_ok thr (c := s.1) (n := f.num) (by omega)
      rw [et, bind_ok, pure_eq_ok, bind_ok] at e
      rw [← Except.ok.inj e]
      by_cases he : t > 0
      · rw [if_pos he]
        refine fin t fun k h1 h2 => ?_
        have := e2 k h1 h2
        rw [s2 k h2] at this ⊢
        exact C3.Poly.cut_small this
      · rw [if_neg he]
        exact fin f.num fun k h1 h2 => by omega
    · rw [if_neg hn, bind_ok] at e
      rw [← Except.ok.inj e]
      exact fin f.num fun k h1 h2 => by omega

/-- The approximation on one cell: the rounding of the expansion on that cell whose coefficients are the discrete inner products of the
function with the basis. -/
def CellApprox (thr : K) (Q : PT → Nat → Rule K) (g : K → K) (fam : Fam K) (n : Nat) (f : Ope K) : Prop :=
  ∃ p, p.fam = fam ∧ p.num = n ∧ (p.map.Inv ∧ 0 < p.map.slope) ∧ p.map.map f.lb = fam.lower ∧ p.map.map f.ub = fam.upper ∧ p.WF ∧ IsProj Q g p ∧
    (∀ k, f.cf k = p.cf k ∨ (f.cf k = 0 ∧ (|p.cf k| < thr ∨ ∃ j < n, |p.cf k| < thr * (n * |p.cf j|)))) ∧ f.fam = fam ∧ f.map = p.map

/-- What the family and the rules must provide. -/
structure CellRules (Q : PT → Nat → Rule K) (fam : Fam K) : Prop where
  pt : fam.pt ≠ .herm
  lt : fam.lower < fam.upper
  cheb : fam.pt = .cheb → ∃ pi, fam = chebFam pi
  norm : ∀ k, fam.norm k ≠ 0
  len : ∀ n, (Q fam.pt n).pts.length = n ∧ (Q fam.pt n).wts.length = n
  pts : ∀ n ≤ 199, ∀ x ∈ (Q fam.pt n).pts, fam.lower ≤ x ∧ x ≤ fam.upper

theorem leafApprox_ok {thr : K} {Q : PT → Nat → Rule K} (cc : Nat → Rule K) {F : List K → C (Option (List K))} {g : K → K} {fam : Fam K} {maxorder : Nat}
    (hr : CellRules Q fam) (hm : maxorder ≤ 197) {l u : K} (hlu : l < u) (hF : ∀ xs, (∀ x ∈ xs, l ≤ x ∧ x ≤ u) → F xs = .ok (some (xs.map g))) :
    ∃ f, leafApprox thr Q cc F fam maxorder l u = .ok f ∧ Piece (maxorder + 1) f ∧ f.lb = l ∧ f.ub = u ∧ CellApprox thr Q g fam (maxorder + 1) f := by
  obtain ⟨p, ep, p1, p2, p3, p4, p5, p6, p7, p8, p9, p10, p11, pw, pz⟩ := C3.Poly.init_map fam (maxorder + 1) hr.pt hr.lt hlu
  have wf := pw (by omega) hr.cheb
  obtain ⟨co, e1, l1, pr⟩ := C3.Poly.approxVec_gauss (cc := cc) (D := fun x => l ≤ x ∧ x ≤ u) hF (f := p)
    (fun n hn x hx => by
      rw [p1] at hx
      obtain ⟨a, b⟩ := hr.pts n hn x hx
      have hx' := p11 x
      rw [← hx', ← p6] at a
      rw [← hx', ← p7] at b
      unfold C3.Poly.SMap.map at a b
      exact ⟨le_of_mul_le_mul_left (by linarith) p9, le_of_mul_le_mul_left (by linarith) p9⟩)
    wf (o := none) (by simp) (by rw [p2]; omega) (by rw [p1]; exact hr.len) (fun k _ => by rw [p1]; exact hr.norm k) (fun k _ => pz k)
  have wf' : Ope.WF { p with coeff := co } := ⟨wf.pos, wf.num_le, by rw [l1]; exact wf.alloc_le, wf.cheb⟩
  obtain ⟨f, ef, hf, -⟩ := C3.Poly.round_ok (thr := thr) (f := { p with coeff := co }) wf'.pos (wf'.num_le.trans wf'.alloc_le)
  have hcl := round_clean wf'.pos (wf'.num_le.trans wf'.alloc_le) ef
  have h2 : ({ p with coeff := co } : Ope K).num = maxorder + 1 := p2
  rw [h2] at hcl
  refine ⟨f, ?_, ⟨⟨hf.pos, hf.le.trans (by rw [hf.nalloc]; exact wf'.num_le), by rw [hf.nalloc, hf.len]; exact wf'.alloc_le, fun h => ?_⟩,
      hf.krist.trans p5, by rw [hf.nalloc]; exact h2 ▸ wf'.num_le, hcl⟩, hf.lb.trans p3, hf.ub.trans p4,
      { p with coeff := co }, p1, p2, ⟨p8, p9⟩, ?_, ?_, wf', pr, fun k => ?_, hf.fam.trans p1, hf.map⟩
  · rw [leafApprox, ep, bind_ok, C3.Poly.approxKeep, e1, bind_ok]
    dsimp only [Option.getD]
    rw [pure_eq_ok, bind_ok, ef]
  · have hfam : f.fam = fam := hf.fam.trans p1
    rw [hfam] at h ⊢
    exact hr.cheb h
  · rw [hf.lb]; exact (congrArg p.map.map p3).trans p6
  · rw [hf.ub]; exact (congrArg p.map.map p4).trans p7
  · have := hf.cf k
    dsimp only at this
    rw [← p2]
    exact this

/-- **C122** The adaptive approximation ends and returns pieces that cover `[lb, ub]` from left to right; every piece is the (rounded)
projection of the function on its own cell; no piece is longer than `minsize` with last coefficients whose squares exceed the tolerance,
unless there is only one piece, whose test is relative to the sum of squares. Evaluations of the function outside `[lb, ub]` do not occur:
`F` may do anything there. -/
theorem approxAdapt_ok [Archimedean K] {thr : K} {Q : PT → Nat → Rule K} (cc : Nat → Rule K) {F : List K → C (Option (List K))} {g : K → K} {o : PwOpts K}
    (hr : CellRules Q o.fam) (hm : o.maxorder ≤ 197) (hlu : o.lb < o.ub) (hF : ∀ xs, (∀ x ∈ xs, o.lb ≤ x ∧ x ≤ o.ub) → F xs = .ok (some (xs.map g)))
    (hn : 1 ≤ o.nregions) (hs : 0 < o.minsize) (hp : o.pts = none) :
    ∃ fuel p, approxAdapt (leafApprox thr Q cc F o.fam o.maxorder) o fuel = .ok p ∧ p.Ok ∧ p.isFlat = true ∧ p.lb = .ok o.lb ∧ p.ub = .ok o.ub ∧
      (∀ f ∈ p.leaves, CellApprox thr Q g o.fam (o.maxorder + 1) f) ∧
      ((∀ f ∈ p.leaves, Accepted o f) ∨ ∃ f, p = .leaf f ∧ ∀ j < min o.check (o.maxorder + 1), f.cf (o.maxorder - j) ^ 2 ≤
        o.eps * ∑ k ∈ range (o.maxorder + 1), f.cf k ^ 2) := by
  have hA : ∀ l u, o.lb ≤ l → l < u → u ≤ o.ub → ∃ f, leafApprox thr Q cc F o.fam o.maxorder l u = .ok f ∧ Piece (o.maxorder + 1) f ∧ f.lb = l ∧ f.ub = u :=
    fun l u h0 h1 h2 => by
      obtain ⟨f, e, a, b, c, -⟩ := leafApprox_ok (thr := thr) cc hr hm h1 (fun xs hx => hF xs fun x hx' => ⟨h0.trans (hx x hx').1, (hx x hx').2.trans h2⟩)
      exact ⟨f, e, a, b, c⟩
  have made : ∀ f, o.lb ≤ f.lb → f.lb < f.ub → f.ub ≤ o.ub → MadeBy (leafApprox thr Q cc F o.fam o.maxorder) f → CellApprox thr Q g o.fam (o.maxorder + 1) f :=
    fun f h0 h1 h2 ⟨q, eq, hq⟩ => by
      obtain ⟨f', e, a, b, c, p, q1, q2, q3, q4, q5, q6, q7, q8, q9, q10⟩ := leafApprox_ok (thr := thr) (g := g) cc hr hm h1
        (fun xs hx => hF xs fun x hx' => ⟨h0.trans (hx x hx').1, (hx x hx').2.trans h2⟩)
      rw [eq] at e
      obtain rfl := Except.ok.inj e
      exact ⟨p, q1, q2, q3, by rw [hq.same.lb]; exact q4, by rw [hq.same.ub]; exact q5, q6, q7, fun k => by rw [hq.cf]; exact q8 k,
        by rw [hq.same.fam]; exact q9, by rw [hq.same.map]; exact q10⟩
  obtain ⟨f, ef, pf, f1, f2, cf⟩ := leafApprox_ok (thr := thr) cc hr hm hlu hF
  have leafOk : (Pw.leaf f).Ok := ⟨trivial, ⟨List.isChain_singleton _, fun h hh => by
      obtain rfl := List.mem_singleton.1 hh
      rw [f1, f2]; exact hlu⟩, fun h hh => by
      obtain rfl := List.mem_singleton.1 hh; exact pf.wf, fun h hh => by
      obtain rfl := List.mem_singleton.1 hh; exact pf.krist⟩
  have leafCell : ∀ h ∈ (Pw.leaf f).leaves, CellApprox thr Q g o.fam (o.maxorder + 1) h := fun h hh => by
    obtain rfl := List.mem_singleton.1 hh; exact cf
  by_cases c : o.ub - o.lb < o.minsize ∨ o.nregions = 1
  · refine ⟨0, .leaf f, ?_, leafOk, rfl, by rw [Pw.lb, f1], by rw [Pw.ub, f2], leafCell, .inl fun h hh => ?_⟩
    · rw [approxAdapt, cassert_of (by rw [hp]; rfl), bind_ok, ef, bind_ok, if_pos c]; rfl
    · obtain rfl := List.mem_singleton.1 hh
      rw [Accepted, f1, f2]
      exact c.elim .inl fun c => .inr (.inl c)
  · have esum : forN (o.maxorder + 1) (fun i s => do
        let c ← rd f.coeff i
        pure (s + c * c)) (0 : K) = .ok (∑ k ∈ range (o.maxorder + 1), f.cf k ^ 2) := by
      obtain ⟨s, e, h⟩ := forN_spec (n := o.maxorder + 1) (s := (0 : K)) (body := fun i s => do
          let c ← rd f.coeff i
          pure (s + c * c)) (I := fun m s => s = ∑ k ∈ range m, f.cf k ^ 2) rfl
        (by
          rintro m hm s rfl
          exact ⟨_, by rw [rd_getD 0 (by have := pf.len.trans pf.wf.alloc_le; omega), bind_ok, pf.raw m hm]; rfl, by rw [sum_range_succ, sq]⟩)
      rw [e, h]
    obtain ⟨r, er, hrr⟩ := mustRefine_ok (check := o.check) (o.eps * ∑ k ∈ range (o.maxorder + 1), f.cf k ^ 2) pf
    cases r with
    | false =>
      refine ⟨0, .leaf f, ?_, leafOk, rfl, by rw [Pw.lb, f1], by rw [Pw.ub, f2], leafCell, .inr ⟨f, rfl, fun j hj => ?_⟩⟩
      · rw [approxAdapt, cassert_of (by rw [hp]; rfl), bind_ok, ef, bind_ok, if_neg c, esum, bind_ok, er, bind_ok]; rfl
      · have := hrr.1 rfl j hj
        rwa [Nat.add_sub_cancel, ← sq] at this
    | true =>
      have hR : 2 ≤ o.nregions := by
        have : ¬ o.nregions = 1 := fun h => c (.inr h)
        omega
      have hRK : (1 : K) < o.nregions := by exact_mod_cast hR
      obtain ⟨n, hn⟩ := pow_unbounded_of_one_lt ((o.ub - o.lb) / o.minsize) hRK
      rw [div_lt_iff₀ hs, mul_comm] at hn
      obtain ⟨ls, el, hl, tl, gl⟩ := approx1_even hA hR le_rfl hlu le_rfl
      have lne : ls ≠ [] := fun h => by rw [h] at hl; simp at hl; omega
      obtain ⟨ms, em, tm, mne, gm⟩ := adaptHelp_ok hA hR hp n tl le_rfl le_rfl lne fun h hh => by
        obtain ⟨a1, a2, a3⟩ := gl h hh
        refine ⟨a1, ⟨h, a2, ⟨⟨a1.wf, rfl, rfl, rfl, rfl, rfl⟩, fun _ => rfl, rfl⟩⟩, .inr ?_⟩
        rw [a3, div_lt_iff₀ (by linarith)]
        have : o.minsize * (o.nregions : K) ^ n ≤ o.minsize * (o.nregions : K) ^ n * o.nregions :=
          le_mul_of_one_le_right (mul_nonneg hs.le (pow_nonneg (by linarith) _)) hRK.le
        linarith
      have elv : (Pw.node (ms.map Pw.leaf)).leaves = ms := leavesL_map_leaf ms
      have full : (Pw.node (ms.map Pw.leaf)).Full := ⟨by simpa using mne, fullL_map_leaf ms⟩
      obtain ⟨t1, t2⟩ := tm.ends mne
      refine ⟨n + 1, .node (ms.map Pw.leaf), ?_, ⟨full, by rw [elv]; exact tm.consec, fun h hh => ?_, fun h hh => ?_⟩, flat_map ms, ?_, ?_, fun h hh => ?_,
        .inl fun h hh => ?_⟩
      · rw [approxAdapt, cassert_of (by rw [hp]; rfl), bind_ok, ef, bind_ok, if_neg c, esum, bind_ok, er, bind_ok, if_pos rfl, hp, el, bind_ok, em]
      · rw [elv] at hh; exact (gm h hh).1.wf
      · rw [elv] at hh; exact (gm h hh).1.krist
      · rw [lb_ok full, ← t1]; congr 2; simp only [elv]
      · rw [ub_ok full, ← t2]; congr 2; simp only [elv]
      · rw [elv] at hh
        obtain ⟨b1, b2, b3⟩ := tm.mem h hh
        exact made h b1 b2 b3 (gm h hh).2.1
      · rw [elv] at hh; exact (gm h hh).2.2

/-- Gauss-Legendre rules have their points inside the interval. -/
theorem gauss_pts_mem {Q : PT → Nat → Rule ℝ} (hQ : ∀ n, IsGaussLeg n (Q .leg n)) : ∀ n ≤ 199, ∀ x ∈ (Q .leg n).pts, -1 ≤ x ∧ x ≤ 1 := by
  obtain ⟨gap, h0, h⟩ := GoodRules.of_gauss hQ
  exact fun n hn x hx => ⟨by have := (h.pts n hn x hx).1; linarith, (h.pts n hn x hx).2.le⟩

/-- A piece reproduces every polynomial of degree up to `maxorder` that the function agrees with on its cell (rounding threshold zero). -/
theorem CellApprox.exact {Q : PT → Nat → Rule ℝ} (hQ : ∀ n, IsGaussLeg n (Q .leg n)) {g : ℝ → ℝ} {maxorder : Nat}
    (hm : maxorder ≤ 197) {f : Ope ℝ} (h : CellApprox 0 Q g legFam (maxorder + 1) f) (q : Polynomial ℝ) (hq : q.natDegree ≤ maxorder)
    (hg : ∀ x, f.lb ≤ x → x ≤ f.ub → g x = q.eval x) (x : ℝ) : f.val x = q.eval x := by
  obtain ⟨p, p1, p2, ⟨p3, hs⟩, p4, p5, p6, p7, p8, p9, p10⟩ := h
  have ecf : ∀ k, f.cf k = p.cf k := fun k => (p8 k).elim id fun h => by
    rcases h with ⟨-, h | ⟨j, -, h⟩⟩
    · exact absurd h (not_lt.2 (abs_nonneg _))
    · rw [zero_mul] at h; exact absurd h (not_lt.2 (abs_nonneg _))
  rw [C3.Poly.val_congr (f := f) (g := p) (p9.trans p1.symm) p10 ecf]
  have hl := C3.Poly.legFam_lead
  have hpt : p.fam.pt = .leg := by rw [p1]; rfl
  have a : p.map.slope * f.lb + p.map.off = -1 := p4
  have b : p.map.slope * f.ub + p.map.off = 1 := p5
  have hR : ∀ y, (q.comp (Polynomial.C p.map.islope * Polynomial.X + Polynomial.C p.map.ioff)).eval (p.map.slope * y + p.map.off) = q.eval y := fun y => by
    rw [Polynomial.eval_comp, Polynomial.eval_add, Polynomial.eval_mul, Polynomial.eval_C, Polynomial.eval_X, Polynomial.eval_C]
    congr 1
    exact p3.left y
  rw [p7.exact (fun k _ => by rw [p1]; show legFam.norm k ≠ 0; exact one_ne_zero)
    (by rw [hpt, p1]; exact C3.Poly.legDiscOrth (hQ _) (by omega)) (by rw [p1]; exact hl.1) (by rw [p1]; exact hl.2.1) (by rw [p1]; exact hl.2.2)
    (q.comp (Polynomial.C p.map.islope * Polynomial.X + Polynomial.C p.map.ioff)) ?_ (fun i hi => ?_) x, hR]
  · rw [p2]
    refine lt_of_le_of_lt Polynomial.degree_le_natDegree ?_
    have h4 := Polynomial.natDegree_comp_le (p := q) (q := Polynomial.C p.map.islope * Polynomial.X + Polynomial.C p.map.ioff)
    have h5 : (Polynomial.C p.map.islope * Polynomial.X + Polynomial.C p.map.ioff).natDegree ≤ 1 := Polynomial.natDegree_linear_le
    have h6 := Nat.mul_le_mul_left q.natDegree h5
    exact_mod_cast (by omega : (q.comp (Polynomial.C p.map.islope * Polynomial.X + Polynomial.C p.map.ioff)).natDegree < maxorder + 1)
  · rw [hpt]
    set t := (Q .leg (p.num + 1)).pts.getD i 0 with ht
    have hmem : t ∈ (Q .leg (p.num + 1)).pts := by
      rw [ht, List.getD_eq_getElem?_getD, List.getElem?_eq_getElem (by rw [(hQ _).pts]; exact hi), Option.getD_some]
      exact List.getElem_mem _
    obtain ⟨t1, t2⟩ := gauss_pts_mem hQ (p.num + 1) (by omega) t hmem
    have hinv : p.map.slope * p.map.inv t + p.map.off = t := p3.right t
    have hlu : p.map.slope * (f.ub - f.lb) = 2 := by linarith
    rw [hg (p.map.inv t) (le_of_mul_le_mul_left (by linarith) hs) (le_of_mul_le_mul_left (by linarith) hs), ← hR, hinv]

theorem legCell {Q : PT → Nat → Rule ℝ} (hQ : ∀ n, IsGaussLeg n (Q .leg n)) : CellRules Q legFam where
  pt := by simp [legFam]
  lt := by simp [legFam]
  cheb := fun h => by simp [legFam] at h
  norm := fun k => by show legFam.norm k ≠ 0; exact one_ne_zero
  len := fun n => ⟨(hQ n).pts, (hQ n).wts⟩
  pts := gauss_pts_mem hQ

/-- **C122** A polynomial of degree up to `maxorder` is reproduced on the whole interval, however often it is split. -/
theorem approxAdapt_poly {Q : PT → Nat → Rule ℝ} (hQ : ∀ n, IsGaussLeg n (Q .leg n))
    (cc : Nat → Rule ℝ) {F : List ℝ → C (Option (List ℝ))} {o : PwOpts ℝ} (hfam : o.fam = legFam)
    (hm : o.maxorder ≤ 197) (hlu : o.lb < o.ub) (q : Polynomial ℝ) (hq : q.natDegree ≤ o.maxorder)
    (hF : ∀ xs, (∀ x ∈ xs, o.lb ≤ x ∧ x ≤ o.ub) → F xs = .ok (some (xs.map fun x => q.eval x)))
    (hn : 1 ≤ o.nregions) (hs : 0 < o.minsize) (hp : o.pts = none) (tol dflt : ℝ) (sq : ℝ → ℝ) :
    ∃ fuel p, approxAdapt (leafApprox 0 Q cc F o.fam o.maxorder) o fuel = .ok p ∧ ∀ x, x < o.ub + tol → p.eval tol dflt sq x = .ok (q.eval x) := by
  obtain ⟨fuel, p, e, h1, -, -, h2, h3, -⟩ := approxAdapt_ok (thr := 0) cc (by rw [hfam]; exact legCell hQ) hm hlu hF hn hs hp
  refine ⟨fuel, p, e, fun x hx => ?_⟩
  obtain ⟨i, hi, ei, -⟩ := eval_leaf (tol := tol) (dflt := dflt) sq h1 h2 hx
  rw [ei]
  have hc := h3 p.leaves[i] (List.getElem_mem _)
  rw [hfam] at hc
  rw [hc.exact hQ hm q hq fun _ _ _ => rfl]

/-- C122 fails for 200 or more polynomials per piece (`maxorder` above 198): the projection refuses the number of points, its return code
is ignored, and the result is the zero function on one piece, whatever the function is. -/
theorem approxAdapt_many_counterexample {thr : K} (Q : PT → Nat → Rule K) (cc : Nat → Rule K) (F : List K → C (Option (List K))) {o : PwOpts K}
    (h1 : o.fam.pt ≠ .herm) (h2 : o.fam.lower < o.fam.upper) (hlu : o.lb < o.ub) (hp : o.pts = none) (hm : 199 ≤ o.maxorder) (fuel : Nat) :
    ∃ f, approxAdapt (leafApprox thr Q cc F o.fam o.maxorder) o fuel = .ok (.leaf f) ∧ ∀ x, f.val x = 0 := by
  obtain ⟨p, ep, p1, p2, p3, p4, p5, p6, p7, p8, p9, p10, p11, pw, pz⟩ := C3.Poly.init_map o.fam (o.maxorder + 1) h1 h2 hlu
  have ev : C3.Poly.vecRule Q cc p none = .ok none := by
    unfold C3.Poly.vecRule
    dsimp only
    have hne : (none : Option Bool) ≠ some true := by simp
    rw [if_neg (fun c => hne c.1), if_neg hne, if_pos (by omega)]
  have hlen : p.num ≤ p.coeff.length := by
    have : p.coeff = List.replicate (o.maxorder + 1 + 50) 0 := by
      have e := ep
      unfold C3.Poly.init at e
      split at e
      · rename_i h; exact absurd h h1
      · rw [C3.Lin.dv_ok (sub_pos.2 hlu).ne', bind_ok] at e
        dsimp only at e
        rw [C3.Lin.dv_ok (div_pos (sub_pos.2 h2) (sub_pos.2 hlu)).ne', bind_ok, C3.Lin.dv_ok (div_pos (sub_pos.2 h2) (sub_pos.2 hlu)).ne', bind_ok] at e
        rw [← Except.ok.inj e]
    rw [this, List.length_replicate]; omega
  obtain ⟨f, ef, hf, -⟩ := C3.Poly.round_ok (thr := thr) (f := p) (by omega) hlen
  have zcf : ∀ k, f.cf k = 0 := fun k => by
    have zp : p.cf k = 0 := by simp only [Ope.cf, pz]; split <;> rfl
    exact (hf.cf k).elim (fun h => h.trans zp) fun h => h.1
  have hcl := round_clean (by omega) hlen ef
  rw [p2] at hcl
  have zraw : ∀ k < o.maxorder + 1, f.coeff.getD k 0 = 0 := fun k hk => (hcl k hk).trans (zcf k)
  have hfl : o.maxorder + 1 ≤ f.coeff.length := by rw [hf.len]; omega
  have el : leafApprox thr Q cc F o.fam o.maxorder o.lb o.ub = .ok f := by
    rw [leafApprox, ep, bind_ok, C3.Poly.approxKeep, C3.Poly.approxVec, ev, bind_ok]
    dsimp only
    rw [pure_eq_ok, bind_ok, pure_eq_ok]
    dsimp only [Option.getD]
    rw [bind_ok, ef]
  refine ⟨f, ?_, fun x => ?_⟩
  · rw [approxAdapt, cassert_of (by rw [hp]; rfl), bind_ok, el, bind_ok]
    by_cases c : o.ub - o.lb < o.minsize ∨ o.nregions = 1
    · rw [if_pos c]; rfl
    · rw [if_neg c]
      have esum : forN (o.maxorder + 1) (fun i s => do
          let c ← rd f.coeff i
          pure (s + c * c)) (0 : K) = .ok 0 := by
        obtain ⟨s, e, h⟩ := forN_spec (n := o.maxorder + 1) (s := (0 : K)) (body := fun i s => do
            let c ← rd f.coeff i
            pure (s + c * c)) (I := fun m s => s = 0) rfl
          (by
            rintro m hm s rfl
            exact ⟨_, by rw [rd_getD 0 (by omega), bind_ok, zraw m hm]; rfl, by simp⟩)
        rw [e, h]
      have er : mustRefine o.check (o.maxorder + 1) (o.eps * 0) f = .ok false := by
        rw [mustRefine]
        obtain ⟨s, e, h⟩ := forN_spec (n := if o.check < o.maxorder + 1 then o.check else o.maxorder + 1) (s := false) (body := fun jj b => if b then pure true
            else do
              let c ← rd f.coeff (o.maxorder + 1 - 1 - jj)
              pure (decide (c * c > o.eps * 0))) (I := fun m b => b = false) rfl
          (by
            rintro m hm b rfl
            refine ⟨false, ?_, rfl⟩
            rw [if_neg Bool.false_ne_true, rd_getD 0 (by omega), bind_ok, zraw _ (by omega)]
            simp)
        rw [e, h]
      rw [esum, bind_ok, er, bind_ok]; rfl
  · rw [C3.Poly.val_cf (N := f.num) le_rfl]
    exact sum_eq_zero fun k _ => by rw [zcf, zero_mul]

/-- A list of points set by the user makes the adaptive approximation fail its assertion; `piecewise_poly_approx1` alone honours it. -/
theorem approxAdapt_pts_counterexample (A : K → K → C (Ope K)) {o : PwOpts K} {l : List K} (hp : o.pts = some l) (fuel : Nat) :
    approxAdapt A o fuel = .error .assertFail := by
  rw [approxAdapt, hp]; rfl

/-- With points from the user, `piecewise_poly_approx1` makes one piece per cell, each the projection on its cell. -/
theorem approx1_pts {thr : K} {Q : PT → Nat → Rule K} (cc : Nat → Rule K) {F : List K → C (Option (List K))} {g : K → K} {fam : Fam K} {maxorder R : Nat}
    (hr : CellRules Q fam) (hm : maxorder ≤ 197) (hR : R ≠ 1) {pts : List K} (h2 : 2 ≤ pts.length) (hs : ∀ i, i + 1 < pts.length → pts.getD i 0 < pts.getD (i + 1) 0)
    (hF : ∀ xs, (∀ x ∈ xs, pts.getD 0 0 ≤ x ∧ x ≤ pts.getD (pts.length - 1) 0) → F xs = .ok (some (xs.map g))) (l u : K) :
    ∃ ls : List (Ope K), approx1 (leafApprox thr Q cc F fam maxorder) R (some pts) l u = .ok (.node (ls.map Pw.leaf)) ∧ ls.length = pts.length - 1 ∧
      (Pw.node (ls.map Pw.leaf)).Ok ∧ ∀ i (h : i < ls.length), ls[i].lb = pts.getD i 0 ∧ ls[i].ub = pts.getD (i + 1) 0 ∧ CellApprox thr Q g fam (maxorder + 1) ls[i] := by
  have mk : ∀ l u, pts.getD 0 0 ≤ l → l < u → u ≤ pts.getD (pts.length - 1) 0 → ∃ f, leafApprox thr Q cc F fam maxorder l u = .ok f ∧ Piece (maxorder + 1) f ∧
      f.lb = l ∧ f.ub = u ∧ CellApprox thr Q g fam (maxorder + 1) f := fun l u h0 h1 h2 =>
    leafApprox_ok (thr := thr) cc hr hm h1 (fun xs hx => hF xs fun x hx' => ⟨h0.trans (hx x hx').1, (hx x hx').2.trans h2⟩)
  obtain ⟨ls, e, hl, ht, hg⟩ := cells_ok (A := leafApprox thr Q cc F fam maxorder) (N := maxorder + 1) (lo := pts.getD 0 0) (hi := pts.getD (pts.length - 1) 0)
    (fun l u a b c => by
      obtain ⟨f, e, p, q, r, -⟩ := mk l u a b c
      exact ⟨f, e, p, q, r⟩) (pts := pts) (n := pts.length - 1) (by omega) (fun i hi => hs i (by omega)) le_rfl le_rfl
  have lne : ls ≠ [] := fun h => by rw [h] at hl; simp at hl; omega
  have elv : (Pw.node (ls.map Pw.leaf)).leaves = ls := leavesL_map_leaf ls
  refine ⟨ls, ?_, hl, ⟨⟨by simpa using lne, fullL_map_leaf ls⟩, by rw [elv]; exact ht.consec, fun f hf => ?_, fun f hf => ?_⟩, fun i hi => ?_⟩
  · rw [approx1, if_neg hR, if_neg (by omega), e, bind_ok]; rfl
  · rw [elv] at hf
    obtain ⟨i, hi, rfl⟩ := List.getElem_of_mem hf
    exact (hg i hi).1.wf
  · rw [elv] at hf
    obtain ⟨i, hi, rfl⟩ := List.getElem_of_mem hf
    exact (hg i hi).1.krist
  · obtain ⟨-, a2, a3, a4⟩ := hg i hi
    refine ⟨a3, a4, ?_⟩
    obtain ⟨b1, b2, b3⟩ := ht.mem _ (List.getElem_mem hi)
    obtain ⟨f, e, -, -, -, q⟩ := mk _ _ b1 b2 b3
    rw [a2] at e
    rw [Except.ok.inj e]; exact q

/-- A concrete case: the step function on `[-1, 2]`, four polynomials per piece, three regions. -/
example {thr : ℝ} (Q : PT → Nat → Rule ℝ) (hQ : ∀ n, IsGaussLeg n (Q .leg n)) (cc : Nat → Rule ℝ) :=
  approxAdapt_ok (thr := thr) (Q := Q) cc (F := fun xs => .ok (some (xs.map fun x => if 0 < x then (1 : ℝ) else 0))) (o := ⟨legFam, -1, 2, 3, 1 / 10, 2, 1 / 100, 3, none⟩)
    (legCell hQ) (by norm_num) (by norm_num) (fun _ _ => rfl) (by norm_num) (by norm_num) rfl

example (Q : PT → Nat → Rule ℝ) (hQ : ∀ n, IsGaussLeg n (Q .leg n)) (cc : Nat → Rule ℝ) :=
  approxAdapt_poly hQ cc (F := fun xs => .ok (some (xs.map fun x => (Polynomial.X ^ 2 + 1 : Polynomial ℝ).eval x))) (o := ⟨legFam, -1, 2, 3, 1 / 10, 2, 1 / 100, 3, none⟩)
    rfl (by norm_num) (by norm_num) (Polynomial.X ^ 2 + 1) (le_trans (show (Polynomial.X ^ 2 + 1 : Polynomial ℝ).natDegree ≤ 2 by compute_degree) (by norm_num)) (fun _ _ => rfl) (by norm_num) (by norm_num) rfl

example : ∃ Q : PT → Nat → Rule ℝ, ∀ n, IsGaussLeg n (Q .leg n) := ⟨fun _ n => (C3.Quad.exists_gaussLeg n).choose, fun n => (C3.Quad.exists_gaussLeg n).choose_spec⟩

example {thr : ℝ} (Q : PT → Nat → Rule ℝ) (hQ : ∀ n, IsGaussLeg n (Q .leg n)) (cc : Nat → Rule ℝ) (g : ℝ → ℝ) :=
  approx1_pts (thr := thr) (Q := Q) cc (F := fun xs => .ok (some (xs.map g))) (maxorder := 3) (R := 2) (legCell hQ) (by norm_num) (by norm_num) (pts := [0, 1, 3]) (by simp)
    (fun i hi => by
      have : i < 2 := by simp at hi; omega
      interval_cases i <;> norm_num) (fun _ _ => rfl)

example (Q : PT → Nat → Rule ℝ) (cc : Nat → Rule ℝ) (fuel : Nat) := approxAdapt_many_counterexample (thr := 0) Q cc (fun xs => .ok (some (xs.map fun _ => 1)))
  (o := ⟨legFam, -1, 2, 199, 1 / 10, 2, 1 / 100, 3, none⟩) (by simp [legFam]) (by simp [legFam]) (by norm_num) rfl (by norm_num) fuel

end C3.Pw

/- Constructors and splits of piecewise polynomials, detection of discontinuities (property C125). -/
import Verif.Pw.Split
import Verif.Pw.ApproxProps
import Verif.Pw.MatchProps
import Verif.Poly.MakeProps
import Verif.Poly.BasisProps

set_option linter.unusedSectionVars false

namespace C3.Pw
open Finset
open C3.Poly (Ope Opts Fam PT Rule legFam ProjectsAt Rounded SMap FromOpts)

section field
variable {K : Type} [Field K] [LinearOrder K] [IsStrictOrderedRing K]

/-- Families and intervals for which expansions can be made. -/
structure Usable (fam : Fam K) (l u : K) : Prop where
  lt : l < u
  dom : fam.pt ≠ .herm → fam.lower < fam.upper
  cheb : fam.pt = .cheb → ∃ pi, fam = C3.Poly.chebFam pi

theorem init_any {fam : Fam K} {l u : K} (h : Usable fam l u) {num : Nat} (hn : 1 ≤ num) : ∃ p, C3.Poly.init fam num l u = .ok p ∧ p.WF ∧ p.fam = fam ∧ p.num = num ∧
    p.lb = l ∧ p.ub = u ∧ p.krist = false ∧ p.map.Inv ∧ ∀ k, p.coeff.getD k 0 = 0 := by
  by_cases c : fam.pt = .herm
  · refine ⟨⟨fam, num, l, u, ⟨1, 0, 1, 0⟩, num + 50, List.replicate (num + 50) 0, false⟩, ?_, ⟨hn, by dsimp only; omega, by simp, h.cheb⟩, rfl, rfl, rfl, rfl, rfl, ⟨by norm_num, by norm_num⟩,
      fun k => C3.Poly.rep_getD _ k⟩
    unfold C3.Poly.init
    rw [c]
  · obtain ⟨p, e, h1, h2, h3, h4, h5, -, -, h6, -, -, -, h7, h8⟩ := C3.Poly.init_map fam num c (h.dom c) h.lt
    exact ⟨p, e, h7 hn h.cheb, h1, h2, h3, h4, h5, h6, h8⟩

/-- The part of an expansion on an interval: an expansion of the same function there, rounded. -/
theorem cell_ok {thr : K} {Q : PT → Nat → Rule K} {f : Ope K} (sq : K → K) (hf : f.WF) (hk : f.krist = false) (hl : f.fam.Lead) {l u : K} (h : Usable f.fam l u)
    (hQ : ProjectsAt Q f.fam f.num) :
    ∃ c r, cellFrom thr sq Q f l u = .ok r ∧ c.WF ∧ (∀ x, c.val x = f.val x) ∧ c.num = f.num ∧ Rounded thr c r ∧ r.WF ∧ r.fam = f.fam ∧ r.lb = l ∧ r.ub = u ∧ r.krist = false ∧
      r.num ≤ f.num := by
  obtain ⟨p, e, p1, p2, p3, p4, p5, p6, p7, p8⟩ := init_any h hf.pos
  obtain ⟨P, hP, hPv⟩ := C3.Poly.ser_poly hl hf.pos
  have hval : ∀ x, f.val x = P.eval (f.map.slope * x + f.map.off) := fun x => (hPv _).symm
  let R : Polynomial K := P.comp (Polynomial.C (f.map.slope * p.map.islope) * Polynomial.X + Polynomial.C (f.map.slope * p.map.ioff + f.map.off))
  have hR : ∀ x, R.eval (p.map.slope * x + p.map.off) = f.val x := fun x => by
    have hx : p.map.islope * (p.map.slope * x + p.map.off) + p.map.ioff = x := p7.left x
    rw [hval, Polynomial.eval_comp, Polynomial.eval_add, Polynomial.eval_mul, Polynomial.eval_C, Polynomial.eval_X, Polynomial.eval_C]
    congr 1
    linear_combination f.map.slope * hx
  have hRd : R.degree < (f.num : WithBot Nat) := by
    refine lt_of_le_of_lt Polynomial.degree_le_natDegree ?_
    have h5 : (Polynomial.C (f.map.slope * p.map.islope) * Polynomial.X + Polynomial.C (f.map.slope * p.map.ioff + f.map.off)).natDegree ≤ 1 := Polynomial.natDegree_linear_le
    have h4 := Polynomial.natDegree_comp_le (p := P) (q := Polynomial.C (f.map.slope * p.map.islope) * Polynomial.X + Polynomial.C (f.map.slope * p.map.ioff + f.map.off))
    have h6 := Nat.mul_le_mul_left P.natDegree h5
    exact WithBot.coe_lt_coe.2 (show R.natDegree < f.num by show (P.comp _).natDegree < f.num; omega)
  obtain ⟨c, ec, cw, cv⟩ := hQ p p1 p2 p3 p7 (fun k _ => p8 k) R hRd (C3.Poly.eval sq f) (fun x => by rw [C3.Poly.eval_value sq hf hk, hR])
  obtain ⟨c1, c2, c3, c4, c5, c6, c7⟩ := C3.Poly.approx_fields ec
  obtain ⟨r, er, hr, -⟩ := C3.Poly.round_ok (thr := thr) (f := c) cw.pos (cw.num_le.trans cw.alloc_le)
  refine ⟨c, r, by rw [cellFrom, e, bind_ok, ec, bind_ok, er], cw, fun x => (cv x).trans (hR x), c6.trans p3, hr, hr.wf cw, hr.fam.trans (c1.trans p2), hr.lb.trans (c3.trans p4),
    hr.ub.trans (c4.trans p5), hr.krist.trans (c5.trans p6), ?_⟩
  have := hr.le
  rw [c6, p3] at this
  exact this

/-- What a cell of a split is. -/
structure Cell (thr : K) (f : Ope K) (l u : K) (r : Ope K) : Prop where
  wf : r.WF
  fam : r.fam = f.fam
  lb : r.lb = l
  ub : r.ub = u
  krist : r.krist = false
  num : r.num ≤ f.num
  same : ∃ c, Rounded thr c r ∧ c.num = f.num ∧ ∀ x, c.val x = f.val x

theorem Cell.exact {f r : Ope K} {l u : K} (h : Cell 0 f l u r) (x : K) : r.val x = f.val x := by
  obtain ⟨c, h1, -, h2⟩ := h.same
  rw [h1.exact0, h2]

theorem cell_spec {thr : K} {Q : PT → Nat → Rule K} {f : Ope K} (sq : K → K) (hf : f.WF) (hk : f.krist = false) (hl : f.fam.Lead) {l u : K} (h : Usable f.fam l u)
    (hQ : ProjectsAt Q f.fam f.num) : ∃ r, cellFrom thr sq Q f l u = .ok r ∧ Cell thr f l u r := by
  obtain ⟨c, r, e, -, h1, h2, h3, h4, h5, h6, h7, h8, h9⟩ := cell_ok sq hf hk hl h hQ
  exact ⟨r, e, h4, h5, h6, h7, h8, h9, c, h3, h2, h1⟩

/-- Leaves that represent one function: evaluation gives that function. -/
theorem eval_const {tol dflt : K} (sq : K → K) {p : Pw K} (h : p.Ok) {g : K → K} (hg : ∀ f ∈ p.leaves, ∀ x, f.val x = g x) {u x : K} (hu : p.ub = .ok u) (hx : x < u + tol) :
    p.eval tol dflt sq x = .ok (g x) := by
  obtain ⟨i, hi, e, -⟩ := eval_leaf (tol := tol) (dflt := dflt) sq h hu hx
  rw [e, hg _ (List.getElem_mem _)]

/-- C125: splitting a piece into several. The result consists of one piece per interval, each an expansion of the same function on its interval, rounded. Without
rounding (threshold 0) the result has the same values. -/
theorem splitn_value {thr tol dflt : K} {Q : PT → Nat → Rule K} {f : Ope K} (sq : K → K) (hf : f.WF) (hk : f.krist = false) (hl : f.fam.Lead)
    (hd : f.fam.pt ≠ .herm → f.fam.lower < f.fam.upper) (hQ : ProjectsAt Q f.fam f.num) {bounds : List K} (hb : bounds.Pairwise (· < ·)) {N : Nat} (hN : bounds.length = N) (h2 : 2 ≤ N)
    (h0 : bounds[0] = f.lb) (h1 : bounds[N - 1] = f.ub) :
    ∃ rs, (Pw.leaf f).splitn thr sq Q N bounds = .ok (.node (rs.map Pw.leaf)) ∧ ∃ hn : rs.length = N - 1, (∀ i (hi : i < N - 1), Cell thr f bounds[i] bounds[i + 1] rs[i]) ∧
      Tiles f.lb f.ub rs ∧ (Pw.node (rs.map Pw.leaf)).Ok ∧ (thr = 0 → ∀ x, x < f.ub + tol → (Pw.node (rs.map Pw.leaf)).eval tol dflt sq x = .ok (f.val x)) := by
  have hstep : ∀ i (hi : i < N - 1), bounds[i] < bounds[i + 1] := fun i hi => List.pairwise_iff_getElem.1 hb i (i + 1) (by omega) (by omega) (by omega)
  have hR : ∀ i, ∃ r, ∀ hi : i < N - 1, cellFrom thr sq Q f bounds[i] bounds[i + 1] = .ok r ∧ Cell thr f bounds[i] bounds[i + 1] r := by
    intro i
    by_cases hi : i < N - 1
    · obtain ⟨r, e, hc⟩ := cell_spec (thr := thr) sq hf hk hl (l := bounds[i]) (u := bounds[i + 1]) ⟨hstep i hi, hd, hf.cheb⟩ hQ
      exact ⟨r, fun _ => ⟨e, hc⟩⟩
    · exact ⟨f, fun c => absurd c hi⟩
  choose R hR using hR
  obtain ⟨bs, eb, hbs⟩ := forN_spec (n := N - 1) (body := fun ii bs => do
      let l ← rd bounds ii
      let u ← rd bounds (ii + 1)
      let g ← cellFrom thr sq Q f l u
      pure (bs ++ [Pw.leaf g])) (I := fun i bs => bs = (List.range i).map fun k => Pw.leaf (R k)) (s := []) rfl (fun i hi bs hbs => by
      refine ⟨bs ++ [Pw.leaf (R i)], ?_, by rw [hbs, List.range_succ, List.map_append]; rfl⟩
      rw [rd_of_getElem? (List.getElem?_eq_getElem (by omega)), bind_ok, rd_of_getElem? (List.getElem?_eq_getElem (by omega)), bind_ok, (hR i hi).1, bind_ok]; rfl)
  have erun : (Pw.leaf f).splitn thr sq Q N bounds = .ok (.node (((List.range (N - 1)).map R).map Pw.leaf)) := by
    rw [Pw.splitn, rd_of_getElem? (List.getElem?_eq_getElem (by omega)), bind_ok, cassert_of (by simp [h0]), bind_ok, if_neg (by omega),
      rd_of_getElem? (List.getElem?_eq_getElem (by omega)), bind_ok, cassert_of (by simp [h1]), bind_ok, eb, bind_ok, hbs, List.map_map]
    rfl
  have htile : ∀ n, n ≤ N - 1 → ∀ hn : n < bounds.length, Tiles f.lb bounds[n] ((List.range n).map R) := by
    intro n
    induction n with
    | zero => intro _ _; simpa [Tiles] using h0.symm
    | succ n ih =>
      intro h3 h4
      rw [List.range_succ, List.map_append]
      have hc := (hR n (by omega)).2
      refine (ih (by omega) (by omega)).append ⟨hc.lb, ?_, hc.ub⟩
      rw [hc.ub]; exact hstep n (by omega)
  have ht := htile (N - 1) le_rfl (by omega)
  rw [h1] at ht
  have el : (Pw.node (((List.range (N - 1)).map R).map Pw.leaf)).leaves = (List.range (N - 1)).map R := leavesL_map_leaf _
  have hcell : ∀ g ∈ (List.range (N - 1)).map R, ∃ l u, Cell thr f l u g := fun g hg => by
    obtain ⟨i, hi, rfl⟩ := List.mem_map.1 hg
    exact ⟨_, _, (hR i (List.mem_range.1 hi)).2⟩
  have ok : (Pw.node (((List.range (N - 1)).map R).map Pw.leaf)).Ok := by
    refine ⟨⟨?_, fullL_map_leaf _⟩, by rw [el]; exact ht.consec, fun g hg => ?_, fun g hg => ?_⟩
    · simp only [ne_eq, List.map_eq_nil_iff, List.range_eq_nil]; omega
    · rw [el] at hg; obtain ⟨_, _, h⟩ := hcell g hg; exact h.wf
    · rw [el] at hg; obtain ⟨_, _, h⟩ := hcell g hg; exact h.krist
  refine ⟨(List.range (N - 1)).map R, erun, by simp, fun i hi => ?_, ht, ok, fun h x hx => ?_⟩
  · simpa using (hR i hi).2
  · subst h
    have hne : (List.range (N - 1)).map R ≠ [] := by simp only [ne_eq, List.map_eq_nil_iff, List.range_eq_nil]; omega
    refine eval_const sq ok (fun g hg => ?_) (u := f.ub) ?_ hx
    · rw [el] at hg; obtain ⟨_, _, h⟩ := hcell g hg; exact h.exact
    · rw [ub_ok ok.full]
      simp only [el]
      rw [(ht.ends hne).2]

/-- C125: splitting a piece at a point inside. -/
theorem split_value {thr tol dflt loc : K} {Q : PT → Nat → Rule K} {f : Ope K} (sq : K → K) (hf : f.WF) (hk : f.krist = false) (hl : f.fam.Lead)
    (hd : f.fam.pt ≠ .herm → f.fam.lower < f.fam.upper) (hQ : ProjectsAt Q f.fam f.num) (h1 : f.lb < loc) (h2 : loc < f.ub) :
    ∃ a b, (Pw.leaf f).split thr sq Q loc = .ok (.node [.leaf a, .leaf b]) ∧ Cell thr f f.lb loc a ∧ Cell thr f loc f.ub b ∧ (Pw.node [.leaf a, .leaf b]).Ok ∧
      (thr = 0 → ∀ x, x < f.ub + tol → (Pw.node [.leaf a, .leaf b]).eval tol dflt sq x = .ok (f.val x)) := by
  obtain ⟨a, ea, ha⟩ := cell_spec (thr := thr) sq hf hk hl (l := f.lb) (u := loc) ⟨h1, hd, hf.cheb⟩ hQ
  obtain ⟨b, eb, hb⟩ := cell_spec (thr := thr) sq hf hk hl (l := loc) (u := f.ub) ⟨h2, hd, hf.cheb⟩ hQ
  have el : (Pw.node [.leaf a, .leaf b]).leaves = [a, b] := leavesL_map_leaf [a, b]
  have ht : Tiles f.lb f.ub [a, b] := ⟨ha.lb, by rw [ha.ub]; exact h1, by rw [ha.ub]; exact hb.lb, by rw [ha.ub, hb.ub]; exact h2, hb.ub⟩
  have ok : (Pw.node [.leaf a, .leaf b]).Ok := ⟨⟨by simp, fullL_map_leaf [a, b]⟩, by rw [el]; exact ht.consec, by rw [el]; simp [ha.wf, hb.wf], by rw [el]; simp [ha.krist, hb.krist]⟩
  refine ⟨a, b, ?_, ha, hb, ok, fun h x hx => ?_⟩
  · rw [Pw.split, cassert_of (by simpa using h1), bind_ok, cassert_of (by simpa using h2), bind_ok, ea, bind_ok, eb, bind_ok]; rfl
  · subst h
    refine eval_const sq ok (fun g hg => ?_) (u := f.ub) ?_ hx
    · rw [el] at hg
      simp only [List.mem_cons, List.not_mem_nil, or_false] at hg
      rcases hg with rfl | rfl
      · exact ha.exact
      · exact hb.exact
    · show Except.ok b.ub = _
      rw [hb.ub]

/-- C125: refusals. Inner nodes cannot be split, and the point has to lie inside. -/
theorem split_refused (thr : K) (sq : K → K) (Q : PT → Nat → Rule K) {loc : K} {f : Ope K} (h : loc ≤ f.lb ∨ f.ub ≤ loc) (bs : List (Pw K)) :
    (Pw.leaf f).split thr sq Q loc = .error .assertFail ∧ (Pw.node bs).split thr sq Q loc = .error .assertFail := by
  refine ⟨?_, rfl⟩
  rw [Pw.split]
  by_cases c : loc > f.lb
  · rw [cassert_of (by simpa using c), bind_ok, cassert, if_neg (by simpa using h.resolve_left (not_le.2 c))]; rfl
  · rw [cassert, if_neg (by simpa using c)]; rfl

theorem pwOpe_valid {fam : Fam K} {tol lb ub : K} (h : Usable fam lb ub) : (pwOpe fam tol lb ub).Valid :=
  ⟨fun _ => one_ne_zero, fun c => ⟨h.dom c, h.lt⟩, h.cheb⟩

theorem leaf_ok {f : Ope K} (h1 : f.WF) (h2 : f.krist = false) (h3 : f.lb < f.ub) : (Pw.leaf f).Ok :=
  ⟨trivial, ⟨by rw [Pw.leaves]; exact List.isChain_singleton _, by simpa [Pw.leaves] using h3⟩, by simpa [Pw.leaves] using h1, by simpa [Pw.leaves] using h2⟩

/-- C125: constants. -/
theorem pwConstant_value {fam : Fam K} {tol lb ub : K} (h : Usable fam lb ub) (hc : fam.c0 ≠ 0) {thr lim a : K} (ha : |a| < lim) (sq : K → K) :
    ∃ p, pwConstant thr lim a fam tol lb ub = .ok p ∧ p.Ok ∧ p.lb = .ok lb ∧ p.ub = .ok ub ∧ ∀ t d x, p.eval t d sq x = .ok (if |a| < thr then 0 else a) := by
  obtain ⟨r, e, hr, v⟩ := C3.Poly.constant_value (pwOpe_valid (tol := tol) h) rfl hc (thr := thr) ha sq
  refine ⟨.leaf r, by rw [pwConstant, e]; rfl, leaf_ok hr.wf (hr.krist.trans rfl) (by rw [hr.lb, hr.ub]; exact h.lt), congrArg _ hr.lb, congrArg _ hr.ub, fun t d x => ?_⟩
  rw [Pw.eval, Pw.evalW, v]

/-- C125: linear functions. -/
theorem pwLinear_value {fam : Fam K} {tol lb ub : K} (h : Usable fam lb ub) (hc : fam.c0 ≠ 0) (h0 : fam.l0 = 0) (h1 : fam.l1 ≠ 0) (a offset : K) (sq : K → K) :
    ∃ p, pwLinear a offset fam tol lb ub = .ok p ∧ p.Ok ∧ p.lb = .ok lb ∧ p.ub = .ok ub ∧ ∀ t d x, p.eval t d sq x = .ok (a * x + offset) := by
  obtain ⟨r, e, hr, v⟩ := C3.Poly.linear_value (pwOpe_valid (tol := tol) h) rfl hc h0 h1 a offset sq
  refine ⟨.leaf r, by rw [pwLinear, e]; rfl, leaf_ok hr.wf (hr.krist.trans rfl) (by rw [hr.lb, hr.ub]; exact h.lt), congrArg _ hr.lb, congrArg _ hr.ub, fun t d x => ?_⟩
  rw [Pw.eval, Pw.evalW, v]

/-- C125: quadratic functions, up to rounding. -/
theorem pwQuadratic_value {thr : K} {fam : Fam K} {lb ub : K} (h : Usable fam lb ub) {Q : PT → Nat → Rule K} (hQ : ProjectsAt Q fam 3) (a offset : K) (sq : K → K) :
    ∃ c r, pwQuadratic thr Q a offset fam lb ub = .ok (.leaf r) ∧ (Pw.leaf r).Ok ∧ r.lb = lb ∧ r.ub = ub ∧ Rounded thr c r ∧ (∀ x, c.val x = a * (x - offset) ^ 2) ∧
      (thr = 0 → ∀ t d x, (Pw.leaf r).eval t d sq x = .ok (a * (x - offset) ^ 2)) := by
  obtain ⟨p, e, p1, p2, p3, p4, p5, p6, p7, p8⟩ := init_any h (num := 3) (by omega)
  have hx : ∀ x, p.map.islope * (p.map.slope * x + p.map.off) + (p.map.ioff - offset) = x - offset := fun x => by
    have hx : p.map.islope * (p.map.slope * x + p.map.off) + p.map.ioff = x := p7.left x
    linear_combination hx
  obtain ⟨c, ec, cw, cv⟩ := hQ p p1 p2 p3 p7 (fun k _ => p8 k) (.C a * (.C p.map.islope * .X + .C (p.map.ioff - offset)) ^ 2) (by
      refine lt_of_le_of_lt (b := ((2 : Nat) : WithBot Nat)) ?_ (by decide)
      compute_degree
      exact le_rfl) (pwQuadFunc a offset) (fun x => by
      simp only [pwQuadFunc, Polynomial.eval_mul, Polynomial.eval_C, Polynomial.eval_pow, Polynomial.eval_add, Polynomial.eval_X, hx]
      congr 1
      ring)
  obtain ⟨c1, c2, c3, c4, c5, c6, c7⟩ := C3.Poly.approx_fields ec
  obtain ⟨r, er, hr, -⟩ := C3.Poly.round_ok (thr := thr) (f := c) cw.pos (cw.num_le.trans cw.alloc_le)
  have hcv : ∀ x, c.val x = a * (x - offset) ^ 2 := fun x => by
    rw [cv]; simp only [Polynomial.eval_mul, Polynomial.eval_C, Polynomial.eval_pow, Polynomial.eval_add, Polynomial.eval_X, hx]
  have hlb := hr.lb.trans (c3.trans p4)
  have hub := hr.ub.trans (c4.trans p5)
  have hkr := hr.krist.trans (c5.trans p6)
  refine ⟨c, r, by rw [pwQuadratic, e, bind_ok, ec, bind_ok, er, bind_ok]; rfl, leaf_ok (hr.wf cw) hkr (by rw [hlb, hub]; exact h.lt), hlb, hub, hr, hcv, fun h t d x => ?_⟩
  subst h
  rw [Pw.eval, Pw.evalW, C3.Poly.eval_value sq (hr.wf cw) hkr, hr.exact0, hcv]

end field

/-- C125: the piecewise Legendre functions of the different orders are orthonormal on the interval. -/
theorem pwGenorder_leg {lb ub tol : ℝ} (h : lb < ub) (other : Ope ℝ → Ope ℝ → C ℝ) :
    ∃ F : Nat → Ope ℝ, (∀ n, pwGenorder Real.sqrt n legFam tol lb ub = .ok (.leaf (F n)) ∧ (Pw.leaf (F n)).Ok ∧ (F n).lb = lb ∧ (F n).ub = ub ∧ (F n).num = n + 1) ∧
      (∀ n t d x, (Pw.leaf (F n)).eval t d Real.sqrt x = .ok ((F n).val x)) ∧ ∀ i j, (∫ x in lb..ub, (F i).val x * (F j).val x) = (if i = j then 1 else 0) := by
  have hv : (pwOpe legFam tol lb ub).Valid := pwOpe_valid ⟨h, fun _ => by show (-1 : ℝ) < 1; norm_num, fun c => by simp [legFam] at c⟩
  obtain ⟨F, hF, hI⟩ := C3.Poly.genorder_leg hv rfl other
  have ok : ∀ n, (Pw.leaf (F n)).Ok := fun n => by
    obtain ⟨-, h2, -⟩ := hF n
    exact leaf_ok h2.wf (h2.krist.trans rfl) (by rw [h2.lb, h2.ub]; exact h)
  refine ⟨F, fun n => ?_, fun n t d x => ?_, fun i j => (hI i j).1⟩
  · obtain ⟨h1, h2, -⟩ := hF n
    exact ⟨by rw [pwGenorder, h1]; rfl, ok n, h2.lb, h2.ub, h2.num⟩
  · rw [Pw.eval, Pw.evalW, C3.Poly.eval_value Real.sqrt ((ok n).wf _ (by simp [Pw.leaves])) ((ok n).krist _ (by simp [Pw.leaves]))]

example : ∃ F : Nat → Ope ℝ, ∀ n, pwGenorder Real.sqrt n legFam 0 0 3 = .ok (.leaf (F n)) := by
  obtain ⟨F, h, -⟩ := pwGenorder_leg (lb := 0) (ub := 3) (tol := 0) (by norm_num) (fun _ _ => .error .ub)
  exact ⟨F, fun n => (h n).1⟩

/-! ### Discontinuities -/

/-- No jump between two values: the difference is below the tolerance, relative to the first value if that is at least one. -/
def NoJump (jump a b : ℝ) : Prop := (if 1 ≤ |a| then |a - b| / |a| else |a - b|) < jump

/-- Two trees that meet: the last piece of the left, the first piece of the right one, and the common bound. -/
structure Meet (tol : ℝ) (p q : Pw ℝ) (f g : Ope ℝ) (b : ℝ) : Prop where
  okl : p.Ok
  okr : q.Ok
  legl : ∀ f ∈ p.leaves, f.fam = legFam
  legr : ∀ f ∈ q.leaves, f.fam = legFam
  last : p.leaves.getLast? = some f
  first : q.leaves.head? = some g
  ub : f.ub = b
  lb : g.lb = b
  long : f.lb + tol ≤ b

theorem Meet.vals {tol dflt : ℝ} (h0 : 0 < tol) {p q : Pw ℝ} {f g : Ope ℝ} {b : ℝ} (h : Meet tol p q f g b) (sq : ℝ → ℝ) :
    p.ub = .ok b ∧ q.lb = .ok b ∧ p.eval tol dflt sq b = .ok (f.val b) ∧ q.eval tol dflt sq b = .ok (g.val b) := by
  have e1 : p.ub = .ok b := by
    rw [ub_ok h.okl.full]
    have := h.last
    rw [List.getLast?_eq_some_getLast (leaves_ne h.okl.full)] at this
    rw [Option.some.inj this, h.ub]
  have e2 : q.lb = .ok b := by
    rw [lb_ok h.okr.full]
    have := h.first
    rw [List.head?_eq_some_head (leaves_ne h.okr.full)] at this
    rw [Option.some.inj this, h.lb]
  refine ⟨e1, e2, eval_at sq h.okl (List.mem_of_getLast? h.last) h.long (by rw [h.ub]; linarith), ?_⟩
  have hg : g ∈ q.leaves := List.mem_of_head? h.first
  have hlen := List.length_pos_of_mem hg
  have hg0 : q.leaves[0] = g := by
    have := h.first
    rw [List.head?_eq_getElem?, List.getElem?_eq_getElem hlen] at this
    exact Option.some.inj this
  have hgb : b < g.ub := by rw [← h.lb]; exact h.okr.consec.2 g hg
  have hl : g.ub ≤ (q.leaves.getLast (leaves_ne h.okr.full)).ub := last_max h.okr.consec.pairwise (leaves_ne h.okr.full) hg
  obtain ⟨-, -, -, -, -, e⟩ := eval_leaf (tol := tol) (dflt := dflt) sq h.okr (u := (q.leaves.getLast (leaves_ne h.okr.full)).ub) (x := b) (ub_ok h.okr.full) (by linarith)
  rw [e, pieceVal_at h.okr.consec hlen (by rw [hg0]; linarith) (by omega), hg0]

/-- The derivatives meet again, and they are the derivatives of the pieces. -/
theorem Meet.deriv {tol : ℝ} {p q : Pw ℝ} {f g : Ope ℝ} {b : ℝ} (h : Meet tol p q f g b) (other : Ope ℝ → Ope ℝ → C (Ope ℝ)) :
    ∃ p' q' f' g', p.deriv 0 Real.sqrt other = .ok p' ∧ q.deriv 0 Real.sqrt other = .ok q' ∧ Meet tol p' q' f' g' b ∧ f'.val = _root_.deriv f.val ∧ g'.val = _root_.deriv g.val := by
  obtain ⟨p', e1, ok1, r1⟩ := deriv_value other h.okl h.legl
  obtain ⟨q', e2, ok2, r2⟩ := deriv_value other h.okr h.legr
  have fam : ∀ {as bs : List (Ope ℝ)}, List.Forall₂ (fun f r => Same f r ∧ ∀ x, HasDerivAt f.val (r.val x) x) as bs → (∀ f ∈ as, f.fam = legFam) → ∀ f ∈ bs, f.fam = legFam := by
    intro as bs hr
    induction hr with
    | nil => intro _ f hf; simp at hf
    | cons h1 _ ih =>
      intro h2 f hf
      rcases List.mem_cons.1 hf with rfl | hf
      · exact h1.1.fam.trans (h2 _ (by simp))
      · exact ih (fun f hf => h2 f (by simp [hf])) f hf
  have hlast : ∀ {as bs : List (Ope ℝ)} {f : Ope ℝ}, List.Forall₂ (fun f r => Same f r ∧ ∀ x, HasDerivAt f.val (r.val x) x) as bs → as.getLast? = some f →
      ∃ f', bs.getLast? = some f' ∧ Same f f' ∧ ∀ x, HasDerivAt f.val (f'.val x) x := by
    intro as bs f hr
    induction hr with
    | nil => intro h; simp at h
    | @cons a b as bs h1 h2 ih =>
      intro h3
      cases h2 with
      | nil =>
        simp only [List.getLast?_singleton, Option.some.injEq] at h3
        subst h3
        exact ⟨b, by simp, h1.1, h1.2⟩
      | cons h4 h5 =>
        rw [List.getLast?_cons_cons] at h3 ⊢
        exact ih h3
  have hfirst : ∀ {as bs : List (Ope ℝ)} {f : Ope ℝ}, List.Forall₂ (fun f r => Same f r ∧ ∀ x, HasDerivAt f.val (r.val x) x) as bs → as.head? = some f →
      ∃ f', bs.head? = some f' ∧ Same f f' ∧ ∀ x, HasDerivAt f.val (f'.val x) x := by
    intro as bs f hr
    cases hr with
    | nil => intro h; simp at h
    | cons h1 h2 =>
      intro h3
      simp only [List.head?_cons, Option.some.injEq] at h3
      subst h3
      exact ⟨_, by simp, h1.1, h1.2⟩
  obtain ⟨f', a1, a2, a3⟩ := hlast r1 h.last
  obtain ⟨g', b1, b2, b3⟩ := hfirst r2 h.first
  exact ⟨p', q', f', g', e1, e2, ⟨ok1, ok2, fam r1 h.legl, fam r2 h.legr, a1, b1, a2.ub.trans h.ub, b2.lb.trans h.lb, by rw [a2.lb]; exact h.long⟩,
    funext fun x => (a3 x).deriv.symm, funext fun x => (b3 x).deriv.symm⟩

theorem checkDisc_step {tol dflt eps jump : ℝ} (h0 : 0 < tol) (he : 0 < eps) {p q : Pw ℝ} {f g : Ope ℝ} {b : ℝ} (h : Meet tol p q f g b) (other : Ope ℝ → Ope ℝ → C (Ope ℝ))
    (fuel : Nat) {m : Int} (hm : m ≠ -1) :
    (¬ NoJump jump (f.val b) (g.val b) → checkDisc 0 tol dflt eps jump Real.sqrt other (fuel + 1) p q m = .ok 1) ∧
    (NoJump jump (f.val b) (g.val b) → ∃ p' q' f' g', Meet tol p' q' f' g' b ∧ f'.val = _root_.deriv f.val ∧ g'.val = _root_.deriv g.val ∧
      checkDisc 0 tol dflt eps jump Real.sqrt other (fuel + 1) p q m = checkDisc 0 tol dflt eps jump Real.sqrt other fuel p' q' (m - 1)) := by
  obtain ⟨e1, e2, e3, e4⟩ := h.vals (dflt := dflt) h0 Real.sqrt
  have run : checkDisc 0 tol dflt eps jump Real.sqrt other (fuel + 1) p q m = (if (if |f.val b| ≥ 1 then |f.val b - g.val b| / |f.val b| else |f.val b - g.val b|) < jump then do
        let dl ← p.deriv 0 Real.sqrt other
        let dr ← q.deriv 0 Real.sqrt other
        checkDisc 0 tol dflt eps jump Real.sqrt other fuel dl dr (m - 1)
      else pure 1) := by
    rw [checkDisc, if_neg hm, e1, bind_ok, e2, bind_ok, cassert_of (by simpa using he), bind_ok, e3, bind_ok, e4, bind_ok]
  refine ⟨fun hn => ?_, fun hn => ?_⟩
  · rw [run, if_neg (show ¬ ((if |f.val b| ≥ 1 then |f.val b - g.val b| / |f.val b| else |f.val b - g.val b|) < jump) from hn)]; rfl
  · obtain ⟨p', q', f', g', d1, d2, d3, d4, d5⟩ := h.deriv other
    refine ⟨p', q', f', g', d3, d4, d5, ?_⟩
    rw [run, if_pos (show ((if |f.val b| ≥ 1 then |f.val b - g.val b| / |f.val b| else |f.val b - g.val b|) < jump) from hn), d1, bind_ok, d2, bind_ok]

/-- C125: detection of discontinuities. The answer is 0 or 1, and it is 0 if and only if the values and the first `m` derivatives of the two adjacent pieces do not jump at the common bound
(Legendre pieces, no rounding). -/
theorem checkDisc_value_partial {tol dflt eps jump : ℝ} (h0 : 0 < tol) (he : 0 < eps) {p q : Pw ℝ} {f g : Ope ℝ} {b : ℝ} (h : Meet tol p q f g b)
    (other : Ope ℝ → Ope ℝ → C (Ope ℝ)) {m fuel : Nat} (hm : m < fuel) :
    ∃ v, checkDisc 0 tol dflt eps jump Real.sqrt other fuel p q m = .ok v ∧ (v = 0 ∨ v = 1) ∧
      (v = 0 ↔ ∀ k ≤ m, NoJump jump (iteratedDeriv k f.val b) (iteratedDeriv k g.val b)) := by
  induction m generalizing p q f g fuel with
  | zero =>
    obtain ⟨fuel, rfl⟩ : ∃ k, fuel = k + 1 := ⟨fuel - 1, by omega⟩
    obtain ⟨s1, s2⟩ := checkDisc_step (dflt := dflt) (jump := jump) h0 he h other fuel (m := (0 : Nat)) (by omega)
    by_cases c : NoJump jump (f.val b) (g.val b)
    · obtain ⟨p', q', -, -, -, -, -, e⟩ := s2 c
      refine ⟨0, ?_, Or.inl rfl, by simpa using c⟩
      rw [e]
      cases fuel <;> simp [checkDisc]
    · exact ⟨1, s1 c, Or.inr rfl, by simpa using c⟩
  | succ m ih =>
    obtain ⟨fuel, rfl⟩ : ∃ k, fuel = k + 1 := ⟨fuel - 1, by omega⟩
    obtain ⟨s1, s2⟩ := checkDisc_step (dflt := dflt) (jump := jump) h0 he h other fuel (m := ((m + 1 : Nat) : Int)) (by omega)
    by_cases c : NoJump jump (f.val b) (g.val b)
    · obtain ⟨p', q', f', g', hM, df, dg, e⟩ := s2 c
      obtain ⟨v, ev, hv, hiff⟩ := ih hM (show m < fuel by omega)
      refine ⟨v, ?_, hv, hiff.trans ⟨fun H k hk => ?_, fun H k hk => ?_⟩⟩
      · rw [e, show ((m + 1 : Nat) : Int) - 1 = (m : Int) by omega, ev]
      · rcases k with _ | k
        · simpa using c
        · rw [iteratedDeriv_succ', iteratedDeriv_succ', ← df, ← dg]
          exact H k (by omega)
      · have := H (k + 1) (by omega)
        rwa [iteratedDeriv_succ', iteratedDeriv_succ', ← df, ← dg] at this
    · refine ⟨1, s1 c, Or.inr rfl, ⟨fun H => absurd H (by omega), fun H => absurd (by simpa using H 0 (by omega)) c⟩⟩

/-- Negative numbers of derivatives other than -1: for two pieces that do not jump in any derivative (for example two copies of a polynomial) the recursion never ends. -/
theorem checkDisc_diverges {tol dflt eps jump : ℝ} (h0 : 0 < tol) (he : 0 < eps) {p q : Pw ℝ} {f g : Ope ℝ} {b : ℝ} (h : Meet tol p q f g b)
    (other : Ope ℝ → Ope ℝ → C (Ope ℝ)) (hj : ∀ k, NoJump jump (iteratedDeriv k f.val b) (iteratedDeriv k g.val b)) {m : Int} (hm : m < -1) (fuel : Nat) :
    checkDisc 0 tol dflt eps jump Real.sqrt other fuel p q m = .error .diverge := by
  induction fuel generalizing p q f g m with
  | zero => rw [checkDisc, if_neg (by omega)]
  | succ fuel ih =>
    obtain ⟨p', q', f', g', hM, df, dg, e⟩ := (checkDisc_step (dflt := dflt) (jump := jump) h0 he h other fuel (m := m) (by omega)).2 (by simpa using hj 0)
    rw [e]
    refine ih hM (fun k => ?_) (by omega)
    have := hj (k + 1)
    rwa [iteratedDeriv_succ', iteratedDeriv_succ', ← df, ← dg] at this

/-! ### Examples -/

example : ∃ Q : PT → Nat → Rule ℝ, ∃ rs, (Pw.leaf (exPiece 0 4 [1, 2])).splitn 0 Real.sqrt Q 3 [0, 1, 4] = .ok (.node (rs.map Pw.leaf)) ∧ rs.length = 2 ∧ Tiles 0 4 rs := by
  obtain ⟨r, hr⟩ := C3.Quad.exists_gaussLeg 3
  obtain ⟨rs, e, hn, -, ht, -⟩ := splitn_value (thr := 0) (tol := 0) (dflt := 0) (Q := fun _ _ => r) (f := exPiece 0 4 [1, 2]) Real.sqrt (exPiece_wf (by simp)) rfl C3.Poly.Leg.lead
    (fun _ => by show (-1 : ℝ) < 1; norm_num) (C3.Poly.projects_leg (N := 2) hr) (bounds := [0, 1, 4]) (by simp) (N := 3) rfl (by omega) rfl rfl
  exact ⟨_, rs, e, hn, ht⟩

example : ∃ Q : PT → Nat → Rule ℝ, ∃ p, (Pw.leaf (exPiece 0 4 [1, 2])).split 0 Real.sqrt Q 3 = .ok p ∧ p.eval 0 0 Real.sqrt 2 = .ok ((exPiece 0 4 [1, 2]).val 2) := by
  obtain ⟨r, hr⟩ := C3.Quad.exists_gaussLeg 3
  obtain ⟨a, b, e, -, -, -, h⟩ := split_value (thr := 0) (tol := 0) (dflt := 0) (loc := 3) (Q := fun _ _ => r) (f := exPiece 0 4 [1, 2]) Real.sqrt (exPiece_wf (by simp)) rfl C3.Poly.Leg.lead
    (fun _ => by show (-1 : ℝ) < 1; norm_num) (C3.Poly.projects_leg (N := 2) hr) (by show (0 : ℝ) < 3; norm_num) (by show (3 : ℝ) < 4; norm_num)
  exact ⟨_, _, e, h rfl 2 (by show (2 : ℝ) < 4 + 0; norm_num)⟩

theorem legUsable {l u : ℝ} (h : l < u) : Usable legFam l u := ⟨h, fun _ => by show (-1 : ℝ) < 1; norm_num, fun c => by simp [legFam] at c⟩

example : ∃ p, pwConstant (1 / 10) 10 (3 : ℝ) legFam 0 0 2 = .ok p ∧ p.eval 0 0 Real.sqrt 1 = .ok 3 := by
  obtain ⟨p, e, -, -, -, h⟩ := pwConstant_value (tol := 0) (legUsable (show (0 : ℝ) < 2 by norm_num)) C3.Poly.Leg.lead.c (thr := 1 / 10) (lim := 10) (a := 3) (by norm_num) Real.sqrt
  exact ⟨p, e, by rw [h, if_neg (by norm_num)]⟩

example : ∃ p, pwLinear 3 (-1) legFam 0 0 2 = .ok p ∧ p.eval 0 0 Real.sqrt 1 = .ok 2 := by
  obtain ⟨p, e, -, -, -, h⟩ := pwLinear_value (tol := 0) (legUsable (show (0 : ℝ) < 2 by norm_num)) C3.Poly.Leg.lead.c rfl C3.Poly.Leg.lead.l 3 (-1) Real.sqrt
  exact ⟨p, e, by rw [h]; norm_num⟩

example : ∃ Q : PT → Nat → Rule ℝ, ∃ p, pwQuadratic 0 Q 3 1 legFam 0 2 = .ok p ∧ p.eval 0 0 Real.sqrt 0 = .ok 3 := by
  obtain ⟨r, hr⟩ := C3.Quad.exists_gaussLeg 4
  obtain ⟨c, p, e, -, -, -, -, -, h⟩ := pwQuadratic_value (thr := 0) (Q := fun _ _ => r) (legUsable (show (0 : ℝ) < 2 by norm_num)) (C3.Poly.projects_leg (N := 3) hr) 3 1 Real.sqrt
  exact ⟨_, _, e, by rw [h rfl]; norm_num⟩

theorem exMeet : Meet (1 / 10) (.leaf (exPiece 0 1 [1, 2])) (.leaf (exPiece 1 2 [1, 2])) (exPiece 0 1 [1, 2]) (exPiece 1 2 [1, 2]) 1 :=
  ⟨leaf_ok (exPiece_wf (by simp)) rfl (by show (0 : ℝ) < 1; norm_num), leaf_ok (exPiece_wf (by simp)) rfl (by show (1 : ℝ) < 2; norm_num),
    by simp [Pw.leaves, exPiece], by simp [Pw.leaves, exPiece], rfl, rfl, rfl, rfl, by show (0 : ℝ) + 1 / 10 ≤ 1; norm_num⟩

/-- A jump of the value is found. -/
example : checkDisc 0 (1 / 10) 0 1 1 Real.sqrt (fun _ _ => .error .ub) 3 (.leaf (exPiece 0 1 [1, 2])) (.leaf (exPiece 1 2 [1, 2])) 0 = .ok 1 := by
  refine (checkDisc_step (by norm_num) one_pos exMeet _ 2 (by decide)).1 ?_
  have h1 : (exPiece 0 1 [1, 2]).val 1 = 1 + 2 * √3 := by simp [exPiece, Ope.val, Finset.sum_range_succ, C3.Poly.leg_p, C3.Poly.Lg]; norm_num
  have h2 : (exPiece 1 2 [1, 2]).val 1 = 1 - 2 * √3 := by simp [exPiece, Ope.val, Finset.sum_range_succ, C3.Poly.leg_p, C3.Poly.Lg]; norm_num; ring
  have h3 : (0 : ℝ) < √3 := Real.sqrt_pos.2 (by norm_num)
  have h4 : (1 : ℝ) ≤ √3 := Real.one_le_sqrt.2 (by norm_num)
  rw [NoJump, h1, h2, abs_of_pos (show 0 < 1 + 2 * √3 by positivity), if_pos (by linarith), show 1 + 2 * √3 - (1 - 2 * √3) = 4 * √3 by ring, abs_of_pos (by positivity), not_lt,
    le_div_iff₀ (by positivity)]
  linarith

example : ∃ v, checkDisc 0 (1 / 10) 0 1 1 Real.sqrt (fun _ _ => .error .ub) 3 (.leaf (exPiece 0 1 [1, 2])) (.leaf (exPiece 1 2 [1, 2])) (2 : Nat) = .ok v ∧ (v = 0 ∨ v = 1) := by
  obtain ⟨v, e, h, -⟩ := checkDisc_value_partial (tol := 1 / 10) (eps := 1) (dflt := 0) (jump := 1) (by norm_num) one_pos exMeet (fun _ _ => .error .ub) (m := 2) (fuel := 3) (by omega)
  exact ⟨v, e, h⟩

theorem exMeet0 : Meet (1 / 10) (.leaf (exPiece 0 1 [0])) (.leaf (exPiece 1 2 [0])) (exPiece 0 1 [0]) (exPiece 1 2 [0]) 1 :=
  ⟨leaf_ok (exPiece_wf (by simp)) rfl (by show (0 : ℝ) < 1; norm_num), leaf_ok (exPiece_wf (by simp)) rfl (by show (1 : ℝ) < 2; norm_num),
    by simp [Pw.leaves, exPiece], by simp [Pw.leaves, exPiece], rfl, rfl, rfl, rfl, by show (0 : ℝ) + 1 / 10 ≤ 1; norm_num⟩

/-- Two zero functions and a number of derivatives below -1. -/
example (fuel : Nat) : checkDisc 0 (1 / 10) 0 1 1 Real.sqrt (fun _ _ => .error .ub) fuel (.leaf (exPiece 0 1 [0])) (.leaf (exPiece 1 2 [0])) (-2) = .error .diverge := by
  refine checkDisc_diverges (by norm_num) one_pos exMeet0 _ (fun k => ?_) (by decide) fuel
  have hv : ∀ a b : ℝ, (exPiece a b [0]).val = fun _ => 0 := fun a b => by funext x; simp [exPiece, Ope.val]
  rw [hv, hv]
  have : iteratedDeriv k (fun _ : ℝ => (0 : ℝ)) 1 = 0 := by simp
  rw [this]
  simp [NoJump]

end C3.Pw

/- Piecewise polynomial trees: evaluation, maps over the leaves, flattening, boundaries, integrals (property C39). -/
import Verif.Pw.Lemmas
import Verif.Poly.AlgProps
import Verif.Poly.EvalProps
import Verif.Poly.DerivExp

set_option linter.unusedSectionVars false

namespace C3.Pw
open C3.Poly (Ope chebFam legFam)
variable {K : Type} [Field K] [LinearOrder K] [IsStrictOrderedRing K]

/-- C39: the tree evaluates the polynomial of the leaf that contains the point, all points up to the upper bound (and a little beyond) being accepted:
the leaf found is the first one whose upper bound plus `tol` exceeds the point, so the point also lies right of its lower bound plus `tol`, unless the leaf is the first one. -/
theorem eval_leaf {tol dflt : K} (sq : K → K) {p : Pw K} (h : p.Ok) {u x : K} (hu : p.ub = .ok u) (hx : x < u + tol) :
    ∃ i, ∃ hi : i < p.leaves.length, p.eval tol dflt sq x = .ok (p.leaves[i].val x) ∧ x < p.leaves[i].ub + tol ∧ (1 ≤ i → p.leaves[i].lb + tol ≤ x) ∧
      p.eval tol dflt sq x = .ok (pieceVal tol p.leaves x) := by
  rw [ub_ok h.full] at hu
  rw [← Except.ok.inj hu] at hx
  obtain ⟨f, hf, e⟩ := evalW_ok (tol := tol) (dflt := dflt) (ev := C3.Poly.eval sq) h.full h.consec.pairwise hx
  have hf' := hf
  rw [found, List.find?_eq_some_iff_getElem] at hf
  obtain ⟨h1, i, hi, rfl, h2⟩ := hf
  have ev : p.eval tol dflt sq x = .ok (p.leaves[i].val x) := by
    rw [Pw.eval, e]; exact C3.Poly.eval_value sq (h.wf _ (List.getElem_mem hi)) (h.krist _ (List.getElem_mem hi)) x
  refine ⟨i, hi, ev, by simpa using h1, fun hi1 => ?_, ?_⟩
  · have := h2 (i - 1) (by omega)
    have hc := List.isChain_iff_getElem.1 h.consec.1 (i - 1) (by omega)
    simp only [show i - 1 + 1 = i by omega] at hc
    rw [← hc]
    simpa using this
  · rw [ev, pieceVal, show p.leaves.find? (fun f => decide (x < f.ub + tol)) = some p.leaves[i] from hf']; rfl

/-- What the code does beyond the upper bound of a tree that is not a single leaf: an arbitrary constant is returned. -/
theorem eval_outside_actual {tol dflt : K} (sq : K → K) {bs : List (Pw K)} (h : (Pw.node bs).Ok) {u x : K} (hu : (Pw.node bs).ub = .ok u) (hx : u + tol ≤ x) :
    (Pw.node bs).eval tol dflt sq x = .ok dflt := by
  rw [ub_ok h.full] at hu
  have hf := h.full
  rw [Pw.Full] at hf
  have hs := h.consec.pairwise
  rcases evalL_ok (tol := tol) (dflt := dflt) (ev := C3.Poly.eval sq) (x := x) hf.2 hs with ⟨f, h1, -⟩ | ⟨-, h2⟩
  · rw [found, List.find?_eq_some_iff_getElem] at h1
    obtain ⟨h3, i, hi, h4, -⟩ := h1
    have hm : f ∈ (Pw.node bs).leaves := by rw [← h4]; exact List.getElem_mem hi
    have := last_max hs (leaves_ne h.full) hm
    rw [Except.ok.inj hu] at this
    have h3 : x < f.ub + tol := by simpa using h3
    linarith
  · exact h2

/-- C39: batched evaluation. -/
theorem evalN_value {tol dflt : K} (sq : K → K) {p : Pw K} (h : p.Ok) {u : K} (hu : p.ub = .ok u) {N incx incy : Nat} {x y : List K}
    (hi : 1 ≤ incy) (hx : ∀ i < N, i * incx < x.length ∧ x.getD (i * incx) 0 < u + tol) (hy : ∀ i < N, i * incy < y.length) :
    ∃ y', p.evalN tol dflt sq N x incx y incy = .ok y' ∧ y'.length = y.length ∧
      (∀ i < N, y'[i * incy]? = some (pieceVal tol p.leaves (x.getD (i * incx) 0))) ∧ ∀ j, (∀ i < N, j ≠ i * incy) → y'[j]? = y[j]? := by
  obtain ⟨y', e, hl, h1, h2⟩ := forN_spec (n := N) (s := y)
    (body := fun ii y => do
      let v ← rd x (ii * incx)
      let r ← p.eval tol dflt sq v
      wr y (ii * incy) r)
    (I := fun m y' => y'.length = y.length ∧ (∀ i < m, y'[i * incy]? = some (pieceVal tol p.leaves (x.getD (i * incx) 0))) ∧
      ∀ j, (∀ i < m, j ≠ i * incy) → y'[j]? = y[j]?)
    ⟨rfl, fun i hi => absurd hi (Nat.not_lt_zero _), fun _ _ => rfl⟩
    (by
      rintro i hiN s ⟨l, h1, h2⟩
      obtain ⟨k, hk, -, -, -, ev⟩ := eval_leaf (tol := tol) (dflt := dflt) sq h hu (hx i hiN).2
      have hb : i * incy < s.length := by rw [l]; exact hy i hiN
      refine ⟨s.set (i * incy) (pieceVal tol p.leaves (x.getD (i * incx) 0)), ?_, by rw [List.length_set, l], fun j hj => ?_, fun j hj => ?_⟩
      · rw [rd_getD 0 (hx i hiN).1, bind_ok, ev, bind_ok, wr_ok _ hb]
      · rcases Nat.lt_succ_iff_lt_or_eq.1 hj with hj | rfl
        · rw [List.getElem?_set_ne (by
            intro c
            exact absurd (Nat.eq_of_mul_eq_mul_right (by omega) c) (by omega))]
          exact h1 j hj
        · rw [List.getElem?_set_self hb]
      · rw [List.getElem?_set_ne (fun c => hj i (by omega) c.symm)]
        exact h2 j fun k hk => hj k (by omega))
  exact ⟨y', e, hl, h1, h2⟩

/-! ### Maps over the leaves -/

/-- Two lists of pieces with the same upper bounds and values related by `R` at a point. -/
theorem pieceVal_rel {tol x : K} {R : K → K → Prop} (h0 : R 0 0) {ls ms : List (Ope K)} (h : List.Forall₂ (fun f g => g.ub = f.ub ∧ R (f.val x) (g.val x)) ls ms) :
    R (pieceVal tol ls x) (pieceVal tol ms x) := by
  induction h with
  | nil => exact h0
  | cons hab _ ih =>
    rename_i a b l m _
    by_cases c : x < a.ub + tol
    · simp only [pieceVal, List.find?_cons, hab.1, c, decide_true, Option.map_some, Option.getD_some]
      exact hab.2
    · have e1 : pieceVal tol (a :: l) x = pieceVal tol l x := by simp [pieceVal, List.find?_cons, c]
      have e2 : pieceVal tol (b :: m) x = pieceVal tol m x := by simp [pieceVal, List.find?_cons, hab.1, c]
      rw [e1, e2]; exact ih

/-- The properties of a leaf that an operation must keep. -/
structure Same (f r : Ope K) : Prop where
  wf : r.WF
  krist : r.krist = f.krist
  lb : r.lb = f.lb
  ub : r.ub = f.ub
  fam : r.fam = f.fam
  map : r.map = f.map

theorem consec_same {ls ms : List (Ope K)} (h : List.Forall₂ Same ls ms) (hc : Consec ls) : Consec ms := by
  obtain ⟨h1, h2⟩ := hc
  refine ⟨?_, ?_⟩
  · clear h2
    induction h with
    | nil => exact List.IsChain.nil
    | cons hab ht ih =>
      rename_i a b l m
      cases ht with
      | nil => exact List.isChain_singleton _
      | cons hcd ht =>
        rename_i c d l m
        rw [List.isChain_cons_cons] at h1 ⊢
        exact ⟨by rw [hab.ub, hcd.lb]; exact h1.1, ih h1.2⟩
  · intro g hg
    obtain ⟨i, hi, rfl⟩ := List.getElem_of_mem hg
    have hi' : i < ls.length := by rw [h.length_eq]; exact hi
    have := h.get hi' hi
    simp only [List.get_eq_getElem] at this
    rw [this.lb, this.ub]
    exact h2 _ (List.getElem_mem _)

theorem Pw.Ok.of_rel {p q : Pw K} (h : p.Ok) (hf : q.Full) (hr : List.Forall₂ Same p.leaves q.leaves) : q.Ok := by
  have get : ∀ g ∈ q.leaves, ∃ f ∈ p.leaves, Same f g := fun g hg => by
    obtain ⟨i, hi, rfl⟩ := List.getElem_of_mem hg
    have hi' : i < p.leaves.length := by rw [hr.length_eq]; exact hi
    have := hr.get hi' hi
    exact ⟨_, List.getElem_mem hi', this⟩
  refine ⟨hf, consec_same hr h.consec, fun g hg => ?_, fun g hg => ?_⟩
  · obtain ⟨f, -, s⟩ := get g hg; exact s.wf
  · obtain ⟨f, hf, s⟩ := get g hg; rw [s.krist]; exact h.krist f hf

/-- An operation on the leaves acts on the piecewise function, whatever the shape of the tree. -/
theorem mapC_value {op : Ope K → C (Ope K)} {R : K → K → K → Prop} (h0 : ∀ x, R x 0 0) {p : Pw K} (h : p.Ok)
    (hop : ∀ f ∈ p.leaves, ∃ r, op f = .ok r ∧ Same f r ∧ ∀ x, R x (f.val x) (r.val x)) :
    ∃ q, p.mapC op = .ok q ∧ q.Ok ∧ List.Forall₂ Same p.leaves q.leaves ∧ q.isFlat = p.isFlat ∧ ∀ tol x, R x (pieceVal tol p.leaves x) (pieceVal tol q.leaves x) := by
  obtain ⟨q, e, hr, hf, -, hfl⟩ := mapC_ok (R := fun f r => Same f r ∧ ∀ x, R x (f.val x) (r.val x)) hop
  have hs : List.Forall₂ Same p.leaves q.leaves := hr.imp fun _ _ h => h.1
  refine ⟨q, e, h.of_rel (hf h.full) hs, hs, hfl, fun tol x => pieceVal_rel (h0 x) (hr.imp fun _ _ h => ⟨h.1.ub, h.2 x⟩)⟩

theorem copy_same {f : Ope K} (hf : f.WF) : ∃ r, C3.Poly.copy f = .ok r ∧ Same f r ∧ ∀ x, r.val x = f.val x := by
  obtain ⟨r, e, w, -, h1, h2, h3, h4, h5, -, h6⟩ := C3.Poly.copy_value hf
  exact ⟨r, e, ⟨w, h5, h3, h4, h1, h2⟩, C3.Poly.val_congr h1 h2 h6⟩

/-- C39: a copy is the same function. -/
theorem copy_value {p : Pw K} (h : p.Ok) : ∃ q, p.copy = .ok q ∧ q.Ok ∧ List.Forall₂ Same p.leaves q.leaves ∧ ∀ tol x, pieceVal tol q.leaves x = pieceVal tol p.leaves x := by
  obtain ⟨q, e, hq, hs, -, hv⟩ := mapC_value (R := fun _ u v => v = u) (fun _ => rfl) h (fun f hf => copy_same (h.wf f hf))
  exact ⟨q, e, hq, hs, hv⟩

/-- C39: flipping the sign. -/
theorem flipSign_value {p : Pw K} (h : p.Ok) : ∃ q, p.flipSign = .ok q ∧ q.Ok ∧ ∀ tol x, pieceVal tol q.leaves x = -pieceVal tol p.leaves x := by
  obtain ⟨q, e, hq, -, -, hv⟩ := mapC_value (op := C3.Poly.flipSign) (R := fun _ u v => v = -u) (fun _ => neg_zero.symm) h (fun f hf => by
    obtain ⟨d, e, l, v⟩ := C3.Poly.mulAll_ok (-1 : K) ((h.wf f hf).num_le.trans (h.wf f hf).alloc_le)
    obtain ⟨r, e', w, hv⟩ := C3.Poly.flipSign_value (h.wf f hf)
    rw [C3.Poly.flipSign, e, bind_ok, pure_eq_ok] at e'
    have e'' := Except.ok.inj e'
    subst e''
    exact ⟨_, by rw [C3.Poly.flipSign, e]; rfl, ⟨w, rfl, rfl, rfl, rfl, rfl⟩, hv⟩)
  exact ⟨q, e, hq, hv⟩

/-- C39: scaling; with a rounding threshold `thr` the error on each leaf is that of scaling a single expansion (C38). -/
theorem scale_value {thr a : K} {p : Pw K} (h : p.Ok) (ht : 0 ≤ thr) {E : K → K} (hE0 : ∀ x, 0 ≤ E x)
    (hE : ∀ f ∈ p.leaves, ∀ x, thr * max 1 (f.num * ∑ k ∈ Finset.range f.num, |a * f.cf k|) * f.lam f.num x ≤ E x) :
    ∃ q, p.scale thr a = .ok q ∧ q.Ok ∧ ∀ tol x, |pieceVal tol q.leaves x - a * pieceVal tol p.leaves x| ≤ E x := by
  obtain ⟨q, e, hq, -, -, hv⟩ := mapC_value (op := C3.Poly.scale thr a) (R := fun x u v => |v - a * u| ≤ E x) (fun x => by simpa using hE0 x) h (fun f hf => by
    have w := h.wf f hf
    obtain ⟨d, ed, l, v⟩ := C3.Poly.mulAll_ok a (w.num_le.trans w.alloc_le)
    obtain ⟨r', er, hro, -⟩ := C3.Poly.round_ok (thr := thr) (f := { f with coeff := d }) w.pos (by
      show f.num ≤ d.length; rw [l]; exact w.num_le.trans w.alloc_le)
    obtain ⟨r, e, rw', rf, rm, rl, ru, -, -, hv⟩ := C3.Poly.scale_value (a := a) w ht (M := ∑ k ∈ Finset.range f.num, |a * f.cf k|)
      (fun k hk => Finset.single_le_sum (f := fun k => |a * f.cf k|) (fun _ _ => abs_nonneg _) (Finset.mem_range.2 hk))
    have ek : r.krist = f.krist := by
      have : r' = r := Except.ok.inj (by rw [← e, C3.Poly.scale, ed, bind_ok, er])
      rw [← this, hro.krist]
    exact ⟨r, e, ⟨rw', ek, rl, ru, rf, rm⟩, fun x => (hv x).trans (hE f hf x)⟩)
  exact ⟨q, e, hq, hv⟩

/-- C39: without a threshold scaling is exact. -/
theorem scale_exact {a : K} {p : Pw K} (h : p.Ok) : ∃ q, p.scale 0 a = .ok q ∧ q.Ok ∧ ∀ tol x, pieceVal tol q.leaves x = a * pieceVal tol p.leaves x := by
  obtain ⟨q, e, hq, hv⟩ := scale_value (thr := 0) (a := a) h le_rfl (E := fun _ => 0) (fun _ => le_rfl) (fun f _ x => by simp)
  exact ⟨q, e, hq, fun tol x => sub_eq_zero.1 (abs_eq_zero.1 (le_antisymm (hv tol x) (abs_nonneg _)))⟩

/-- C39: the derivative of a tree of Legendre expansions is piecewise the derivative of the leaf that is evaluated. -/
theorem deriv_value (other : Ope ℝ → Ope ℝ → C (Ope ℝ)) {p : Pw ℝ} (h : p.Ok) (hfam : ∀ f ∈ p.leaves, f.fam = legFam) :
    ∃ q, p.deriv 0 Real.sqrt other = .ok q ∧ q.Ok ∧ List.Forall₂ (fun f r => Same f r ∧ ∀ x, HasDerivAt f.val (r.val x) x) p.leaves q.leaves := by
  obtain ⟨q, e, hr, hf, -⟩ := mapC_ok (op := C3.Poly.deriv 0 Real.sqrt other) (R := fun f r => Same f r ∧ ∀ x, HasDerivAt f.val (r.val x) x) (p := p) (fun f hf => by
    obtain ⟨r, e, hd, w, hf', hm', l, u, k, -⟩ := C3.Poly.deriv_leg_exact other (h.wf f hf) (hfam f hf) (h.krist f hf)
    exact ⟨r, e, ⟨w, by rw [k, h.krist f hf], l, u, by rw [hf', hfam f hf], hm'⟩, hd⟩)
  exact ⟨q, e, h.of_rel (hf h.full) (hr.imp fun _ _ h => h.1), hr⟩

/-! ### Regions, boundaries, flattening -/

/-- C39: the number of regions is the number of leaves. -/
theorem nregions_value (p : Pw K) : p.nregions = p.leaves.length := by
  rw [Pw.nregions, nregBase_eq, Nat.zero_add]

/-- C39: the boundaries are the lower bound followed by the upper bounds of the leaves, provided a tree with a single leaf is that leaf. -/
theorem boundaries_value_partial {p : Pw K} (h : p.Full) (h1 : p.leaves.length = 1 → p.isLeaf = true) :
    p.boundaries = .ok ((p.leaves.head (leaves_ne h)).lb :: p.leaves.map (·.ub)) := by
  rw [Pw.boundaries.eq_def, nregions_value]
  by_cases c : p.leaves.length + 1 = 2
  · rw [if_pos c]
    have hl := h1 (by omega)
    cases p with
    | leaf f => simp [Pw.leaves, wr, bind, Except.bind]
    | node bs => cases hl
  · rw [if_neg c, lb_ok h, bind_ok, wr_ok _ (by simp), bind_ok, fillB_ok _ _ _ (by simp; omega), bind_ok, pure_eq_ok]
    congr 1
    simp [List.set_cons_zero, List.replicate_succ]

/-- C39 fails for a tree whose only branch is a leaf (as `piecewise_poly_splitn` with two bounds creates it): the expansion of the root is dereferenced, which is NULL. -/
theorem boundaries_counterexample (f : Ope K) : (Pw.node [Pw.leaf f]).boundaries = .error .null := by
  simp [Pw.boundaries, Pw.nregions, Pw.nregBase, nregL]

/-- C39: flattening keeps the function and produces a single leaf or a node all of whose branches are leaves. -/
theorem flatten_value {p : Pw K} (h : p.Ok) : ∃ q, p.flatten = .ok q ∧ q.Ok ∧ q.isFlat = true ∧ List.Forall₂ Same p.leaves q.leaves ∧
    ∀ tol x, pieceVal tol q.leaves x = pieceVal tol p.leaves x := by
  have hrefl : List.Forall₂ Same p.leaves p.leaves := List.forall₂_same.2 fun f hf => ⟨h.wf f hf, rfl, rfl, rfl, rfl, rfl⟩
  rw [Pw.flatten.eq_def]
  by_cases c : p.isFlat = true
  · exact ⟨p, by rw [if_pos c], h, c, hrefl, fun _ _ => rfl⟩
  · rw [if_neg c]
    cases p with
    | leaf f => exact absurd rfl c
    | node bs =>
      obtain ⟨ls, hr, e⟩ := copyLeavesL_ok (R := fun f r => Same f r ∧ ∀ x, r.val x = f.val x) bs (List.replicate (Pw.node bs).nregions none) 0
        (fun f hf => copy_same (h.wf f hf)) (by rw [List.length_replicate, nregions_value]; exact (Nat.zero_add _).le)
      have hn := hr.length_eq
      have el : (Pw.node (ls.map Pw.leaf)).leaves = ls := leavesL_map_leaf ls
      have hs : List.Forall₂ Same (Pw.node bs).leaves (Pw.node (ls.map Pw.leaf)).leaves := by rw [el]; exact hr.imp fun _ _ h => h.1
      refine ⟨.node (ls.map Pw.leaf), ?_, ?_, ?_, hs, fun tol x => ?_⟩
      · dsimp only
        rw [e, bind_ok]
        dsimp only
        rw [List.take_zero, List.nil_append, List.drop_of_length_le (by rw [List.length_replicate, nregions_value, Nat.zero_add]; exact le_rfl), List.append_nil,
          show ls.map (fun f => some (Pw.leaf f)) = (ls.map Pw.leaf).map some by rw [List.map_map]; rfl, nonNull_ok]
        rfl
      · refine h.of_rel ?_ hs
        rw [Pw.Full]
        refine ⟨fun c => ?_, fullL_map_leaf ls⟩
        have : ls.length = 0 := by rw [List.map_eq_nil_iff] at c; rw [c]; rfl
        exact leaves_ne h.full (List.length_eq_zero_iff.1 (by rw [show (Pw.node bs).leaves = leavesL bs from rfl, hn, this]))
      · simp [Pw.isFlat, Pw.isLeaf]
      · rw [el]
        exact pieceVal_rel (R := fun u v => v = u) rfl (hr.imp fun _ _ h => ⟨h.1.ub, h.2 x⟩)

end C3.Pw

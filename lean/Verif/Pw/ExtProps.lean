/- Piecewise polynomials: extrema, roots, second derivatives and products (property C123). -/
import Verif.Pw.Ext
import Verif.Pw.MatchEx
import Verif.Poly.ExtProps

set_option linter.unusedSectionVars false

namespace C3.Pw
open C3.Poly (Ope PT Rule Fam Tools legFam chebFam OnInt)

/-! ### Extrema -/

/-- Specification: the first of the best results for the pieces, `φ` being the score. -/
def FirstBest (leaf : Ope ℝ → C (ℝ × ℝ)) (φ : ℝ → ℝ) (ls : List (Ope ℝ)) (v : ℝ × ℝ) : Prop :=
  ∃ l1 f l2, ls = l1 ++ f :: l2 ∧ leaf f = .ok v ∧ (∀ g ∈ l1, ∀ w, leaf g = .ok w → φ w.1 < φ v.1) ∧ ∀ g ∈ l2, ∀ w, leaf g = .ok w → φ w.1 ≤ φ v.1

theorem FirstBest.le {leaf : Ope ℝ → C (ℝ × ℝ)} {φ : ℝ → ℝ} {ls : List (Ope ℝ)} {v : ℝ × ℝ} (h : FirstBest leaf φ ls v) {g : Ope ℝ} (hg : g ∈ ls) {w : ℝ × ℝ}
    (hw : leaf g = .ok w) : φ w.1 ≤ φ v.1 := by
  obtain ⟨l1, f, l2, rfl, e, a, b⟩ := h
  rcases List.mem_append.1 hg with h | h
  · exact (a g h w hw).le
  · rcases List.mem_cons.1 h with rfl | h
    · rw [e] at hw; cases hw; exact le_rfl
    · exact b g h w hw

theorem FirstBest.merge {leaf : Ope ℝ → C (ℝ × ℝ)} {φ : ℝ → ℝ} {ls ms : List (Ope ℝ)} {v w : ℝ × ℝ} (hv : FirstBest leaf φ ls v) (hw : FirstBest leaf φ ms w) :
    FirstBest leaf φ (ls ++ ms) (if φ v.1 < φ w.1 then w else v) := by
  by_cases c : φ v.1 < φ w.1
  · rw [if_pos c]
    have hv' := fun g hg u => hv.le (g := g) hg (w := u)
    obtain ⟨l1, f, l2, rfl, e, a, b⟩ := hw
    refine ⟨ls ++ l1, f, l2, by simp, e, fun g hg u hu => ?_, b⟩
    rcases List.mem_append.1 hg with h | h
    · exact lt_of_le_of_lt (hv' g h u hu) c
    · exact a g h u hu
  · rw [if_neg c]
    have hw' := fun g hg u => hw.le (g := g) hg (w := u)
    obtain ⟨l1, f, l2, rfl, e, a, b⟩ := hv
    refine ⟨l1, f, l2 ++ ms, by simp, e, a, fun g hg u hu => ?_⟩
    rcases List.mem_append.1 hg with h | h
    · exact b g h u hu
    · exact (hw' g h u hu).trans (not_lt.1 c)

mutual
theorem extr_ok {leaf : Ope ℝ → C (ℝ × ℝ)} {φ : ℝ → ℝ} {bt : ℝ → ℝ → Bool} (hb : ∀ a b, bt a b = decide (φ b < φ a)) : ∀ {p : Pw ℝ}, p.Full →
    (∀ f ∈ p.leaves, ∃ v, leaf f = .ok v) → ∃ v, p.extr leaf bt = .ok v ∧ FirstBest leaf φ p.leaves v
  | .leaf f, _, h => by
    obtain ⟨v, e⟩ := h f (by simp [Pw.leaves])
    exact ⟨v, by rw [Pw.extr, e], [], f, [], by simp [Pw.leaves], e, by simp, by simp⟩
  | .node [], hf, _ => by rw [Pw.Full] at hf; exact absurd rfl hf.1
  | .node (b :: bs), hf, h => by
    rw [Pw.Full, FullL] at hf
    rw [Pw.leaves, leavesL] at h ⊢
    obtain ⟨v, e, hv⟩ := extr_ok hb hf.2.1 fun f hf => h f (List.mem_append_left _ hf)
    obtain ⟨r, er, hr⟩ := extrL_ok hb hf.2.2 (fun f hf => h f (List.mem_append_right _ hf)) hv
    exact ⟨r, by rw [Pw.extr, e, bind_ok, er], hr⟩
theorem extrL_ok {leaf : Ope ℝ → C (ℝ × ℝ)} {φ : ℝ → ℝ} {bt : ℝ → ℝ → Bool} (hb : ∀ a b, bt a b = decide (φ b < φ a)) : ∀ {bs : List (Pw ℝ)}, FullL bs →
    (∀ f ∈ leavesL bs, ∃ v, leaf f = .ok v) → ∀ {ls : List (Ope ℝ)} {v : ℝ × ℝ}, FirstBest leaf φ ls v →
      ∃ r, extrL leaf bt v bs = .ok r ∧ FirstBest leaf φ (ls ++ leavesL bs) r
  | [], _, _, ls, v, hv => ⟨v, by rw [extrL], by rw [leavesL, List.append_nil]; exact hv⟩
  | b :: bs, hf, h, ls, v, hv => by
    rw [FullL] at hf
    rw [leavesL] at h ⊢
    obtain ⟨w, e, hw⟩ := extr_ok hb hf.1 fun f hf => h f (List.mem_append_left _ hf)
    obtain ⟨r, er, hr⟩ := extrL_ok hb hf.2 (fun f hf => h f (List.mem_append_right _ hf)) (hv.merge hw)
    refine ⟨r, ?_, by rw [← List.append_assoc]; exact hr⟩
    rw [extrL, e, bind_ok, hb]
    by_cases c : φ v.1 < φ w.1
    · rw [if_pos (decide_eq_true c)]; rw [if_pos c] at er; exact er
    · rw [if_neg (by simpa using c)]; rw [if_neg c] at er; exact er
end

/-- Specification: the largest score over all pieces. `v` is the value (under `g`) of a piece at the point `x` of its interval, and no piece has a larger score at any
point of its interval. -/
def PwBest (ls : List (Ope ℝ)) (g φ : ℝ → ℝ) (v x : ℝ) : Prop :=
  (∃ f ∈ ls, f.lb ≤ x ∧ x ≤ f.ub ∧ v = g (f.val x)) ∧ ∀ f ∈ ls, ∀ y, f.lb ≤ y → y ≤ f.ub → φ (g (f.val y)) ≤ φ v

theorem pwBest_of {leaf : Ope ℝ → C (ℝ × ℝ)} {g φ : ℝ → ℝ} {bt : ℝ → ℝ → Bool} (hb : ∀ a b, bt a b = decide (φ b < φ a)) {p : Pw ℝ} (hf : p.Full)
    (h : ∀ f ∈ p.leaves, ∃ v x, leaf f = .ok (v, x) ∧ f.lb ≤ x ∧ x ≤ f.ub ∧ v = g (f.val x) ∧ ∀ y, f.lb ≤ y → y ≤ f.ub → φ (g (f.val y)) ≤ φ v) :
    ∃ v x, p.extr leaf bt = .ok (v, x) ∧ PwBest p.leaves g φ v x ∧ FirstBest leaf φ p.leaves (v, x) := by
  obtain ⟨⟨v, x⟩, e, hv⟩ := extr_ok hb hf fun f hf => by
    obtain ⟨v, x, e, -⟩ := h f hf
    exact ⟨(v, x), e⟩
  refine ⟨v, x, e, ⟨?_, fun f hf y h1 h2 => ?_⟩, hv⟩
  · obtain ⟨l1, f, l2, el, ef, -, -⟩ := hv
    have hm : f ∈ p.leaves := by rw [el]; simp
    obtain ⟨v', x', e', h1, h2, h3, -⟩ := h f hm
    rw [ef] at e'
    cases e'
    exact ⟨f, hm, h1, h2, h3⟩
  · obtain ⟨v', x', e', -, -, -, h4⟩ := h f hf
    exact (h4 y h1 h2).trans (hv.le hf e')

/-- The value of the piecewise function inside its domain is the value of a piece inside the interval of that piece. -/
theorem pieceVal_mem {p : Pw ℝ} (h : p.Ok) {l u x : ℝ} (hl : p.lb = .ok l) (hu : p.ub = .ok u) (h1 : l ≤ x) (h2 : x < u) :
    ∃ f ∈ p.leaves, f.lb ≤ x ∧ x ≤ f.ub ∧ pieceVal 0 p.leaves x = f.val x := by
  obtain ⟨i, hi, e, h3, h4, e'⟩ := eval_leaf (tol := 0) (dflt := 0) Real.sqrt h hu (x := x) (by linarith)
  refine ⟨p.leaves[i], List.getElem_mem hi, ?_, by linarith, by rw [e] at e'; exact (Except.ok.inj e').symm⟩
  rcases Nat.eq_zero_or_pos i with rfl | hp
  · rw [lb_ok h.full, List.head_eq_getElem] at hl
    rw [Except.ok.inj hl]; exact h1
  · have := h4 hp; linarith

/-- What the search for extrema requires of a leaf: at most two coefficients, or a Chebyshev or Legendre expansion as in C120. -/
def Searchable (T : Tools ℝ) (f : Ope ℝ) : Prop :=
  f.num ≤ 2 ∨ (∃ d, C3.Poly.ExtIn T f d ∧ f.fam = chebFam Real.pi ∧
      ((∀ k, 2 ≤ k → d.cf k = 0) → ¬ (1 - T.thr < -d.cf 0 / d.cf 1 ∧ -d.cf 0 / d.cf 1 ≤ 1))) ∨
    ∃ d, C3.Poly.ExtIn T f d ∧ f.fam = legFam ∧ ((∀ k, 2 ≤ k → d.cf k = 0) → d.cf 1 ≠ 0 → d.cf 0 = 0)

theorem Searchable.ext {T : Tools ℝ} (hT : C3.Poly.ToolsOk T) {f : Ope ℝ} (h : Searchable T f) (hw : f.WF) (hk : f.krist = false) (hlt : f.lb < f.ub) :
    C3.Poly.Extrema T f := by
  rcases h with h | ⟨d, h1, h2, h3⟩ | ⟨d, h1, h2, h3⟩
  · exact C3.Poly.affine_extrema hw hk hlt h
  · exact C3.Poly.cheb_extrema_partial hT h1 h2 h3
  · exact C3.Poly.leg_extrema_partial hT h1 h2 h3

/-- C123: the maximum of a piecewise polynomial is the largest value over all pieces, attained at the place reported, which is the one of the first
of the best pieces; no value inside the domain is larger. Missing for the full claim: the restrictions of C120 on every leaf. -/
theorem max_value_partial {T : Tools ℝ} (hT : C3.Poly.ToolsOk T) {p : Pw ℝ} (h : p.Ok) (hs : ∀ f ∈ p.leaves, Searchable T f) {l u : ℝ} (hl : p.lb = .ok l) (hu : p.ub = .ok u) :
    ∃ v x, p.max T = .ok (v, x) ∧ PwBest p.leaves id id v x ∧ FirstBest (C3.Poly.opeMax T) id p.leaves (v, x) ∧ ∀ y, l ≤ y → y < u → pieceVal 0 p.leaves y ≤ v := by
  obtain ⟨v, x, e, hb, hf⟩ := pwBest_of (leaf := C3.Poly.opeMax T) (g := id) (φ := id) (bt := fun a b => decide (b < a)) (fun _ _ => rfl) h.full
    fun f hf => ((hs f hf).ext hT (h.wf f hf) (h.krist f hf) (h.consec.2 f hf)).max
  refine ⟨v, x, e, hb, hf, fun y h1 h2 => ?_⟩
  obtain ⟨f, hf, a, b, c⟩ := pieceVal_mem h hl hu h1 h2
  rw [c]; exact hb.2 f hf y a b

/-- C123: the same for the minimum. -/
theorem min_value_partial {T : Tools ℝ} (hT : C3.Poly.ToolsOk T) {p : Pw ℝ} (h : p.Ok) (hs : ∀ f ∈ p.leaves, Searchable T f) {l u : ℝ} (hl : p.lb = .ok l) (hu : p.ub = .ok u) :
    ∃ v x, p.min T = .ok (v, x) ∧ PwBest p.leaves id (fun v => -v) v x ∧ FirstBest (C3.Poly.opeMin T) (fun v => -v) p.leaves (v, x) ∧
      ∀ y, l ≤ y → y < u → v ≤ pieceVal 0 p.leaves y := by
  obtain ⟨v, x, e, hb, hf⟩ := pwBest_of (leaf := C3.Poly.opeMin T) (g := id) (φ := fun v => -v) (bt := fun a b => decide (a < b))
    (fun a b => decide_eq_decide.2 neg_lt_neg_iff.symm) h.full fun f hf => by
      obtain ⟨v, x, e, h1, h2, h3, h4⟩ := ((hs f hf).ext hT (h.wf f hf) (h.krist f hf) (h.consec.2 f hf)).min
      exact ⟨v, x, e, h1, h2, h3, fun y a b => neg_le_neg (h4 y a b)⟩
  refine ⟨v, x, e, hb, hf, fun y h1 h2 => ?_⟩
  obtain ⟨f, hf, a, b, c⟩ := pieceVal_mem h hl hu h1 h2
  rw [c]; exact neg_le_neg_iff.1 (hb.2 f hf y a b)

/-- C123: the same for the largest absolute value, all norms of the pieces being at least the threshold. -/
theorem absmax_value_partial {T : Tools ℝ} (hT : C3.Poly.ToolsOk T) {p : Pw ℝ} (h : p.Ok) (hs : ∀ f ∈ p.leaves, Searchable T f) {wt : ℝ → ℝ} {nrm : Ope ℝ → C ℝ}
    (hn : ∀ f ∈ p.leaves, f.fam.pt ≠ .herm ∧ ∃ n, nrm f = .ok n ∧ T.thr ≤ n) {l u : ℝ} (hl : p.lb = .ok l) (hu : p.ub = .ok u) :
    ∃ v x, p.absmax T wt nrm none = .ok (v, x) ∧ PwBest p.leaves (fun v => |v|) id v x ∧ ∀ y, l ≤ y → y < u → |pieceVal 0 p.leaves y| ≤ v := by
  obtain ⟨v, x, e, hb, hf⟩ := pwBest_of (leaf := fun f => C3.Poly.opeAbsmax T wt (nrm f) f none) (g := fun v => |v|) (φ := id) (bt := fun a b => decide (b < a))
    (fun _ _ => rfl) h.full fun f hf => by
      obtain ⟨hp, n, en, hn⟩ := hn f hf
      rw [en]
      exact ((hs f hf).ext hT (h.wf f hf) (h.krist f hf) (h.consec.2 f hf)).abs hp wt n hn
  refine ⟨v, x, e, hb, fun y h1 h2 => ?_⟩
  obtain ⟨f, hf, a, b, c⟩ := pieceVal_mem h hl hu h1 h2
  rw [c]; exact hb.2 f hf y a b

/-! ### Roots -/

mutual
theorem rr_ok {leaf : Ope ℝ → C (List ℝ)} {L : Ope ℝ → List ℝ} : ∀ {p : Pw ℝ}, p.Full → (∀ f ∈ p.leaves, leaf f = .ok (L f)) → p.rr leaf = .ok ((p.leaves.map L).flatten)
  | .leaf f, _, h => by rw [Pw.rr, h f (by simp [Pw.leaves])]; simp [Pw.leaves]
  | .node [], hf, _ => by rw [Pw.Full] at hf; exact absurd rfl hf.1
  | .node (b :: bs), hf, h => by
    rw [Pw.Full, FullL] at hf
    rw [Pw.leaves, leavesL] at h ⊢
    rw [Pw.rr, rr_ok hf.2.1 fun f hf => h f (List.mem_append_left _ hf), bind_ok, rrL_ok hf.2.2 fun f hf => h f (List.mem_append_right _ hf), List.map_append, List.flatten_append]
theorem rrL_ok {leaf : Ope ℝ → C (List ℝ)} {L : Ope ℝ → List ℝ} : ∀ {bs : List (Pw ℝ)}, FullL bs → (∀ f ∈ leavesL bs, leaf f = .ok (L f)) → ∀ {l : List ℝ},
    rrL leaf l bs = .ok (l ++ ((leavesL bs).map L).flatten)
  | [], _, _, l => by rw [rrL, leavesL]; simp
  | b :: bs, hf, h, l => by
    rw [FullL] at hf
    rw [leavesL] at h ⊢
    rw [rrL, rr_ok hf.1 fun f hf => h f (List.mem_append_left _ hf), bind_ok, rrL_ok hf.2 fun f hf => h f (List.mem_append_right _ hf), List.map_append, List.flatten_append,
      ← List.append_assoc]
    congr 2
    split
    · rfl
    · rename_i c
      rw [List.eq_nil_of_length_eq_zero (by omega : ((b.leaves.map L).flatten).length = 0), List.append_nil]
end

/-- What the search for roots requires of a leaf (C119). -/
def Rootable (T : Tools ℝ) (f : Ope ℝ) : Prop :=
  OnInt f ∧ C3.Poly.Sharp T.thr f ∧ (f.num ≤ 2 ∨ ∃ k, f.cf k ≠ 0) ∧
    ((f.fam = chebFam Real.pi ∧ ((∀ k, 2 ≤ k → f.cf k = 0) → ¬ (1 - T.thr < -f.cf 0 / f.cf 1 ∧ -f.cf 0 / f.cf 1 ≤ 1))) ∨
      f.fam = legFam ∧ ((∀ k, 2 ≤ k → f.cf k = 0) → f.cf 1 ≠ 0 → f.cf 0 = 0))

theorem Rootable.list {T : Tools ℝ} (hT : C3.Poly.ToolsOk T) {f : Ope ℝ} (h : Rootable T f) (hw : f.WF) :
    ∃ l, C3.Poly.realRoots T.thr T.eps T.ti T.td T.sq T.eig f = .ok l ∧
      C3.Poly.RootList f (T.ti * ((f.ub - f.lb) / 2)) (max T.thr T.td * ((f.ub - f.lb) / 2)) l ∧
      ((∃ x, f.val x ≠ 0) → ∀ x, f.lb ≤ x → x ≤ f.ub → f.val x = 0 → x ∈ l) := by
  obtain ⟨h1, h2, h3, ⟨h4, h5⟩ | ⟨h4, h5⟩⟩ := h
  · rw [hT.sq]; exact C3.Poly.cheb_roots_partial hT.eig hT.thr hT.thr1 hT.eps hT.ti hT.td hw h4 h1 h2 h5 h3
  · rw [hT.sq]; exact C3.Poly.leg_roots_partial hT.eig hT.thr hT.thr1 hT.eps hT.ti hT.td hw h4 h1 h2 h5 h3

theorem flatten_sorted {L : Ope ℝ → List ℝ} : ∀ {ls : List (Ope ℝ)}, Consec ls → (∀ f ∈ ls, (L f).Pairwise (· ≤ ·) ∧ ∀ y ∈ L f, f.lb ≤ y ∧ y ≤ f.ub) →
    ((ls.map L).flatten).Pairwise (· ≤ ·) := by
  intro ls hc h
  rw [List.pairwise_flatten]
  refine ⟨fun l hl => ?_, ?_⟩
  · obtain ⟨f, hf, rfl⟩ := List.mem_map.1 hl
    exact (h f hf).1
  · rw [List.pairwise_map, List.pairwise_iff_getElem]
    intro i j hi hj hij x hx y hy
    exact ((h _ (List.getElem_mem hi)).2 x hx).2.trans ((hc.get_le hi hj hij).trans ((h _ (List.getElem_mem hj)).2 y hy).1)

/-- C123: the list of roots of a piecewise polynomial is increasing; every member lies in the interval of a piece, near a root of that piece whose imaginary
part is below the tolerance; every zero of a piece (which is not the zero function) inside its interval is a member, so a common zero at a break appears twice. Missing for the full claim:
the restrictions of C119 on every leaf. -/
theorem realRoots_partial {T : Tools ℝ} (hT : C3.Poly.ToolsOk T) {p : Pw ℝ} (h : p.Ok) (hs : ∀ f ∈ p.leaves, Rootable T f) :
    ∃ l, p.realRoots T = .ok l ∧ l.Pairwise (· ≤ ·) ∧
      (∀ y ∈ l, ∃ f ∈ p.leaves, f.lb ≤ y ∧ y ≤ f.ub ∧ ∀ q : Polynomial ℝ, (∀ x, q.eval x = f.val x) →
        ∃ z : ℂ, Polynomial.aeval z q = 0 ∧ |z.im| < T.ti * ((f.ub - f.lb) / 2) ∧ |z.re - y| ≤ max T.thr T.td * ((f.ub - f.lb) / 2)) ∧
      (∀ f ∈ p.leaves, (∃ x, f.val x ≠ 0) → ∀ x, f.lb ≤ x → x ≤ f.ub → f.val x = 0 → x ∈ l) ∧
      l.length = (p.leaves.map fun f => match C3.Poly.realRoots T.thr T.eps T.ti T.td T.sq T.eig f with | .ok m => m.length | .error _ => 0).sum := by
  have key : ∀ f : Ope ℝ, ∃ m : List ℝ, f ∈ p.leaves → C3.Poly.realRoots T.thr T.eps T.ti T.td T.sq T.eig f = .ok m ∧
      C3.Poly.RootList f (T.ti * ((f.ub - f.lb) / 2)) (max T.thr T.td * ((f.ub - f.lb) / 2)) m ∧
      ((∃ x, f.val x ≠ 0) → ∀ x, f.lb ≤ x → x ≤ f.ub → f.val x = 0 → x ∈ m) := fun f => by
    by_cases hf : f ∈ p.leaves
    · obtain ⟨m, hm⟩ := (hs f hf).list hT (h.wf f hf)
      exact ⟨m, fun _ => hm⟩
    · exact ⟨[], fun c => absurd c hf⟩
  choose L hL using key
  refine ⟨(p.leaves.map L).flatten, rr_ok h.full fun f hf => (hL f hf).1, flatten_sorted h.consec fun f hf => ⟨(hL f hf).2.1.sorted, (hL f hf).2.1.inside⟩,
    fun y hy => ?_, fun f hf hne x h1 h2 h3 => ?_, ?_⟩
  · obtain ⟨m, hm, hy⟩ := List.mem_flatten.1 hy
    obtain ⟨f, hf, rfl⟩ := List.mem_map.1 hm
    obtain ⟨-, h1, -⟩ := hL f hf
    exact ⟨f, hf, (h1.inside y hy).1, (h1.inside y hy).2, fun q hq => h1.sound q hq y hy⟩
  · exact List.mem_flatten.2 ⟨L f, List.mem_map.2 ⟨f, hf, rfl⟩, (hL f hf).2.2 hne x h1 h2 h3⟩
  · rw [List.length_flatten, List.map_map]
    congr 1
    exact List.map_congr_left fun f hf => by rw [(hL f hf).1]; rfl

/-! ### Second derivative -/

/-- C123: the second derivative of a piecewise polynomial is piecewise the second derivative (Legendre and Hermite leaves; for Chebyshev leaves see
`C3.Poly.dderiv_counterexample`). -/
theorem dderiv_value_partial {Q : PT → Nat → Rule ℝ} {p : Pw ℝ} (h : p.Ok) (hd : ∀ f ∈ p.leaves, C3.Poly.Diffable Q f ∧ f.fam.pt ≠ .cheb) :
    ∃ q, p.dderiv 0 Real.sqrt Q = .ok q ∧ q.Ok ∧ List.Forall₂ (fun f r => Same f r ∧ ∀ x, HasDerivAt (deriv f.val) (r.val x) x) p.leaves q.leaves := by
  obtain ⟨q, e, hr, hf, -⟩ := mapC_ok (op := C3.Poly.dderiv 0 Real.sqrt Q) (R := fun f r => Same f r ∧ ∀ x, HasDerivAt (deriv f.val) (r.val x) x) (p := p) (fun f hf => by
    obtain ⟨r, e, hd', w, hf', hm', l, u, k⟩ := C3.Poly.dderiv_exact (hd f hf).1 (hd f hf).2
    exact ⟨r, e, ⟨w, by rw [k, h.krist f hf], l, u, hf', hm'⟩, hd'⟩)
  exact ⟨q, e, h.of_rel (hf h.full) (hr.imp fun _ _ h => h.1), hr⟩

/-! ### Products -/

theorem LegLeaf.native {f : Ope ℝ} (h : LegLeaf f) : f.Native := by
  have hlt : legFam.lower < legFam.upper := by norm_num [legFam]
  obtain ⟨g, e, g1, -, g3, g4, -, g5, g6, g7, -⟩ := C3.Poly.init_map legFam f.num (by simp [legFam]) hlt h.int.lt
  refine ⟨g, by rw [h.fam]; exact e, LegLeaf.map_eq ⟨g1, ⟨by rw [g3, g4]; exact h.int.lt, by rw [g3]; exact g5, by rw [g4]; exact g6, by rw [mul_comm]; exact g7.mul⟩, g7⟩ h g3 g4⟩

theorem Pair.prod {peps : ℝ} (he : 0 < peps) {sq : ℝ → ℝ} {Q : PT → Nat → Rule ℝ} (hQ : ∀ n, C3.Poly.IsGaussLeg n (Q .leg n)) {legTab : List ℝ} (hT : C3.Poly.TripleTab legFam legTab)
    (hermTab : List ℝ) {f g : Ope ℝ} (h : Pair f g) : ∃ r, C3.Poly.prod 0 peps sq Q legTab hermTab f g = .ok r ∧ Same f r ∧ ∀ x, r.val x = f.val x * g.val x := by
  have hm : C3.Poly.Mates peps f g := ⟨h.wf, h.wg, h.lg.fam.trans h.lf.fam.symm, h.map.symm, by rw [h.lb, sub_self, abs_zero]; exact he, by rw [h.ub, sub_self, abs_zero]; exact he,
    h.kf, h.kg, h.lf.inv, fun _ => ⟨by rw [h.lf.fam]; norm_num [legFam], (sub_pos.2 h.lf.int.lt).ne'⟩, by rw [h.lf.fam]; exact C3.Poly.Leg.lead⟩
  obtain ⟨r, e, v, w, rf, rm, rl, ru, rk⟩ := C3.Poly.prod_exact (sq := sq) (Q := Q) (legTab := legTab) (hermTab := hermTab) hm
    ⟨fun _ _ => by rw [h.lf.fam]; exact hT, fun _ c => (by rw [h.lf.fam] at c; cases c), fun _ => h.lf.native, fun _ => by rw [h.lf.fam]; exact C3.Poly.projects_leg (hQ _)⟩
  exact ⟨r, e, ⟨w, by rw [rk, h.kf], rl, ru, rf, rm⟩, v⟩

theorem prodL_ok {op : Ope ℝ → Ope ℝ → C (Ope ℝ)} (hop : ∀ f g, Pair f g → ∃ r, op f g = .ok r ∧ Same f r ∧ ∀ x, r.val x = f.val x * g.val x)
    {as bs : List (Ope ℝ)} (h : List.Forall₂ Pair as bs) :
    ∃ rs : List (Ope ℝ), matchedProdL op (as.map Pw.leaf) (bs.map Pw.leaf) = .ok (rs.map Pw.leaf) ∧ List.Forall₂ Same as rs ∧
      ∀ t x, pieceVal t rs x = pieceVal t as x * pieceVal t bs x := by
  induction h with
  | nil => exact ⟨[], by rw [List.map_nil, matchedProdL], .nil, fun t x => by simp [pieceVal]⟩
  | cons hp _ ih =>
    obtain ⟨rs, e, s, v⟩ := ih
    obtain ⟨r, er, sr, vr⟩ := hop _ _ hp
    refine ⟨r :: rs, ?_, .cons sr s, fun t x => ?_⟩
    · rw [List.map_cons, List.map_cons, matchedProdL, matchedProd, er, bind_ok, pure_eq_ok, bind_ok, e, bind_ok]; rfl
    · rw [pieceVal_cons, pieceVal_cons, pieceVal_cons, sr.ub, ← hp.ub]
      split
      · exact vr x
      · exact v t x

/-- C123: the product of two piecewise polynomials is the product as a function, on the domain of the factors. Missing for the full claim: leaves are Legendre expansions of degree
below eight, breaks are equal or well separated (as in C77), no rounding threshold. -/
theorem prod_value_partial {Q : PT → Nat → Rule ℝ} {gap tol tol2 tolA eps peps dflt δ : ℝ} (hQ : GoodRules Q gap) (cc : Nat → Rule ℝ)
    {fuel : Nat} (hfu : 30 ≤ fuel) (sq : ℝ → ℝ) {a b : Pw ℝ} (h : Matchable δ a b) (htol : 0 ≤ tol) (ht2 : 0 ≤ tol2) (ht2' : tol2 < δ) (he : 0 < eps) (he' : eps ≤ δ)
    (hgap0 : 0 ≤ gap) (hgap : tol ≤ gap * δ / 2) (hpe : 0 < peps) {legTab : List ℝ} (hT : C3.Poly.TripleTab legFam legTab) (hermTab : List ℝ) :
    ∃ r, prodPw tol2 eps (legAdapt legFam 0 tolA Q cc fuel) (fun p x => p.eval tol dflt sq x) (C3.Poly.prod 0 peps sq Q legTab hermTab) a b = .ok r ∧ r.Ok ∧ r.lb = a.lb ∧ r.ub = a.ub ∧
      (∀ f ∈ r.leaves, LegLeaf f) ∧ ∀ t x, pieceVal t r.leaves x = pieceVal t a.leaves x * pieceVal t b.leaves x := by
  obtain ⟨as, bs, hp, -, hc, ⟨h0, la, ua⟩, va, vb, hm⟩ := match_ok (tolA := tolA) (dflt := dflt) hQ cc hfu sq h htol ht2 ht2' he he' hgap0 hgap
  have hop : ∀ f g, Pair f g → ∃ r, C3.Poly.prod 0 peps sq Q legTab hermTab f g = .ok r ∧ Same f r ∧ ∀ x, r.val x = f.val x * g.val x :=
    fun f g hp => hp.prod hpe hQ.gauss hT hermTab
  have hk : ∀ f ∈ as, f.krist = false := fun f hf => by obtain ⟨g, -, q⟩ := pairs_left hp f hf; exact q.kf
  have hl : ∀ f ∈ as, LegLeaf f := fun f hf => by obtain ⟨g, -, q⟩ := pairs_left hp f hf; exact q.lf
  rcases hm with ⟨ia, ib, f, g, rfl, rfl, em⟩ | ⟨hnl, em⟩
  · have hfg : Pair f g := by cases hp; assumption
    obtain ⟨r, er, sr, vr⟩ := hop f g hfg
    refine ⟨.leaf r, by rw [prodPw, em, bind_ok, matchedProd, er]; rfl, ?_, ?_, ?_, fun f' hf' => ?_, fun t x => ?_⟩
    · refine ⟨by simp [Pw.Full], ⟨by simp [Pw.leaves], fun q hq => ?_⟩, fun q hq => ?_, fun q hq => ?_⟩ <;>
        (simp only [Pw.leaves, List.mem_singleton] at hq; subst hq)
      · rw [sr.lb, sr.ub]; exact hc.2 f (by simp)
      · exact sr.wf
      · rw [sr.krist, hfg.kf]
    · rw [la, Pw.lb, sr.lb]; rfl
    · rw [ua, Pw.ub, sr.ub]; rfl
    · simp only [Pw.leaves, List.mem_singleton] at hf'
      subst hf'
      exact hfg.lf.same sr
    · rw [← va, ← vb, Pw.leaves, pieceVal_cons, pieceVal_cons, pieceVal_cons, sr.ub, ← hfg.ub]
      split
      · exact vr x
      · simp [pieceVal]
  · obtain ⟨rs, e, s, v⟩ := prodL_ok hop hp
    obtain ⟨rok, rl, rlb, rub⟩ := node_ok h0 hc hk hl s
    have el : (Pw.node (rs.map Pw.leaf)).leaves = rs := leavesL_map_leaf rs
    refine ⟨.node (rs.map Pw.leaf), ?_, rok, by rw [rlb, la], by rw [rub, ua], by rw [el]; exact rl, fun t x => by rw [el, v, va, vb]⟩
    rw [prodPw, em, bind_ok, matchedProd, cassert_of (by simpa using hp.length_eq), bind_ok, e]
    rfl

/-! ### Examples -/

noncomputable def exTree3 : Pw ℝ := .node [.leaf (exPiece 0 1 [0, 1]), .node [.leaf (exPiece 1 3 [0, 2]), .leaf (exPiece 3 4 [0, 1])]]

theorem exTree3_leaves : exTree3.leaves = [exPiece 0 1 [0, 1], exPiece 1 3 [0, 2], exPiece 3 4 [0, 1]] := rfl

theorem exTree3_ok : exTree3.Ok := by
  refine ⟨by simp [exTree3, Pw.Full, FullL], ?_, ?_, ?_⟩
  · rw [exTree3_leaves]
    refine ⟨by simp [exPiece], fun f hf => ?_⟩
    simp only [List.mem_cons, List.not_mem_nil, or_false] at hf
    rcases hf with rfl | rfl | rfl <;> simp [exPiece] <;> norm_num
  · rw [exTree3_leaves]
    intro f hf
    simp only [List.mem_cons, List.not_mem_nil, or_false] at hf
    rcases hf with rfl | rfl | rfl <;> exact exPiece_wf (by simp)
  · rw [exTree3_leaves]
    intro f hf
    simp only [List.mem_cons, List.not_mem_nil, or_false] at hf
    rcases hf with rfl | rfl | rfl <;> rfl

theorem exTree3_small {T : Tools ℝ} : ∀ f ∈ exTree3.leaves, Searchable T f := fun f hf => by
  rw [exTree3_leaves] at hf
  simp only [List.mem_cons, List.not_mem_nil, or_false] at hf
  rcases hf with rfl | rfl | rfl <;> exact Or.inl le_rfl

example : ∃ (T : Tools ℝ) (v x w y : ℝ), exTree3.max T = .ok (v, x) ∧ PwBest exTree3.leaves id id v x ∧ exTree3.absmax T (fun _ => 1) (fun _ => .ok 1) none = .ok (w, y) ∧
    PwBest exTree3.leaves (fun v => |v|) id w y := by
  obtain ⟨T, hT, ht, -⟩ := C3.Poly.exists_tools
  obtain ⟨v, x, e, h, -⟩ := max_value_partial hT exTree3_ok exTree3_small rfl rfl
  obtain ⟨w, y, e', h', -⟩ := absmax_value_partial hT exTree3_ok exTree3_small (wt := fun _ => 1) (nrm := fun _ => .ok 1) (fun f hf => by
    rw [exTree3_leaves] at hf
    simp only [List.mem_cons, List.not_mem_nil, or_false] at hf
    rcases hf with rfl | rfl | rfl <;> exact ⟨by show PT.leg ≠ PT.herm; simp, 1, rfl, by rw [ht]; norm_num⟩) rfl rfl
  exact ⟨T, v, x, w, y, e, h, e', h'⟩

example : ∃ (T : Tools ℝ) (v x : ℝ), exTree3.min T = .ok (v, x) ∧ PwBest exTree3.leaves id (fun v => -v) v x := by
  obtain ⟨T, hT, -, -⟩ := C3.Poly.exists_tools
  obtain ⟨v, x, e, h, -⟩ := min_value_partial hT exTree3_ok exTree3_small rfl rfl
  exact ⟨T, v, x, e, h⟩

/-- Every piece vanishes in the middle of its interval. -/
example : ∃ (T : Tools ℝ) (l : List ℝ), exTree3.realRoots T = .ok l ∧ 2 ∈ l := by
  obtain ⟨T, hT, ht, -⟩ := C3.Poly.exists_tools
  obtain ⟨l, e, -, -, h, -⟩ := realRoots_partial hT exTree3_ok fun f hf => by
    rw [exTree3_leaves] at hf
    have key : ∀ a b c : ℝ, a < b → 1 ≤ c → c ≤ 2 → Rootable T (exPiece a b [0, c]) := fun a b c hab h1 h2 => by
      refine ⟨(exPiece_leg hab _).int, C3.Poly.sharp_range (lo := 1) (hi := 2) hT.thr (fun k hk => ?_) (by rw [ht]; norm_num) (by norm_num)
        (by rw [ht]; show (1 / 20 : ℝ) * ((2 : ℕ) * 2) ≤ 1; norm_num), Or.inl le_rfl, Or.inr ⟨rfl, fun _ _ => rfl⟩⟩
      have : k < 2 := hk
      interval_cases k
      · exact Or.inl rfl
      · refine Or.inr ?_
        show 1 ≤ |c| ∧ |c| ≤ 2
        rw [abs_of_pos (by linarith)]; exact ⟨h1, h2⟩
    simp only [List.mem_cons, List.not_mem_nil, or_false] at hf
    rcases hf with rfl | rfl | rfl <;> exact key _ _ _ (by norm_num) (by norm_num) (by norm_num)
  have hv : ∀ x, (exPiece 1 3 [0, 2]).val x = 2 * (√3 * (x - 2)) := fun x => by
    simp [exPiece, Ope.val, Finset.sum_range_succ, C3.Poly.leg_p, C3.Poly.Lg]
    norm_num
    ring
  exact ⟨T, l, e, h (exPiece 1 3 [0, 2]) (by rw [exTree3_leaves]; simp) ⟨3, by rw [hv]; norm_num⟩ 2 (by show (1 : ℝ) ≤ 2; norm_num) (by show (2 : ℝ) ≤ 3; norm_num) (by rw [hv]; ring)⟩

example : ∃ q, exTree.dderiv 0 Real.sqrt (fun _ _ => ⟨[], []⟩) = .ok q ∧ q.Ok := by
  obtain ⟨q, e, h, -⟩ := dderiv_value_partial (Q := fun _ _ => ⟨[], []⟩) exTree_ok fun f hf => by
    rw [exTree_leaves] at hf
    have key : ∀ a b : ℝ, ∀ c, 1 ≤ c.length → a < b → C3.Poly.Diffable (fun _ _ => ⟨[], []⟩) (exPiece a b c) ∧ (exPiece a b c).fam.pt ≠ .cheb := fun a b c h1 h2 =>
      ⟨⟨exPiece_wf h1, fun _ => rfl, C3.Poly.Leg.lead, rfl, (exPiece_leg h2 c).inv, fun h => absurd rfl h⟩, by show PT.leg ≠ PT.cheb; simp⟩
    simp only [List.mem_cons, List.not_mem_nil, or_false] at hf
    rcases hf with rfl | rfl | rfl <;> exact key _ _ _ (by simp) (by norm_num)
  exact ⟨q, e, h⟩

example : ∃ (Q : PT → Nat → Rule ℝ) (tol : ℝ) (tab : List ℝ), ∀ (cc : Nat → Rule ℝ) (dflt : ℝ), ∃ r,
    prodPw (1 / 100) (1 / 100) (legAdapt legFam 0 (1 / 100) Q cc 30) (fun p x => p.eval tol dflt Real.sqrt x) (C3.Poly.prod 0 1 Real.sqrt Q tab []) exTree exTree2 = .ok r ∧
      ∀ t x, pieceVal t r.leaves x = pieceVal t exTree.leaves x * pieceVal t exTree2.leaves x := by
  obtain ⟨Q, gap, hg, hQ⟩ := exists_goodRules
  obtain ⟨tab, ht⟩ := C3.Poly.exists_tripleTab C3.Poly.Leg.lead
  refine ⟨Q, gap / 4, tab, fun cc dflt => ?_⟩
  obtain ⟨r, e, -, -, -, -, v⟩ := prod_value_partial (tolA := 1 / 100) (dflt := dflt) hQ cc le_rfl Real.sqrt exMatch (tol := gap / 4) (tol2 := 1 / 100) (eps := 1 / 100) (peps := 1)
    (by positivity) (by norm_num) (by norm_num) (by norm_num) (by norm_num) hg.le (by linarith) (by norm_num) ht []
  exact ⟨r, e, v⟩

end C3.Pw

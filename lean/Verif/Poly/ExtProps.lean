import Verif.Poly.RootsProps
import Verif.Poly.DDerivProps
import Mathlib.Analysis.Calculus.LocalExtr.Basic
import Mathlib.Topology.Order.Compact

/-! C120: maximum, minimum and largest absolute value of an expansion over its domain. -/

namespace C3.Poly
open Finset Real

/-- An expansion determines its coefficients. -/
theorem cf_unique {f g : Ope ℝ} (hl : f.fam.Lead) (hf : g.fam = f.fam) (hm : g.map = f.map) (hs : f.map.slope ≠ 0) (h : ∀ x, f.val x = g.val x) (k : Nat) : f.cf k = g.cf k := by
  choose P p1 p2 p3 using fun k => p_poly (fam := f.fam) hl.c hl.l hl.a k
  have key : ∀ (N : Nat) (e : Nat → ℝ), (∀ t, ∑ k ∈ range N, e k * f.fam.p k t = 0) → ∀ k < N, e k = 0 := by
    intro N
    induction N with
    | zero => intro e _ k hk; omega
    | succ N ih =>
      intro e he
      have hz : ∑ k ∈ range (N + 1), Polynomial.C (e k) * P k = 0 := Polynomial.funext fun t => by
        rw [Polynomial.eval_finsetSum, Polynomial.eval_zero, ← he t]
        exact sum_congr rfl fun k _ => by rw [Polynomial.eval_mul, Polynomial.eval_C, p3]
      have hc := congrArg (fun q => Polynomial.coeff q N) hz
      simp only [Polynomial.finset_sum_coeff, Polynomial.coeff_C_mul, Polynomial.coeff_zero] at hc
      rw [sum_range_succ, sum_eq_zero, zero_add] at hc
      · have e0 : e N = 0 := (mul_eq_zero.1 hc).resolve_right (p2 N)
        intro k hk
        rcases Nat.lt_succ_iff_lt_or_eq.1 hk with h | h
        · refine ih e (fun t => ?_) k h
          have := he t
          rwa [sum_range_succ, e0, zero_mul, add_zero] at this
        · rw [h, e0]
      · intro k hk
        rw [mem_range] at hk
        rw [Polynomial.coeff_eq_zero_of_natDegree_lt (lt_of_le_of_lt (p1 k) hk), mul_zero]
  set N := max (k + 1) (max f.num g.num) with hN
  have := key N (fun k => f.cf k - g.cf k) (fun t => by
    have hx := h ((t - f.map.off) / f.map.slope)
    rw [val_cf (N := N) (by omega), val_cf (f := g) (N := N) (by omega), hm, hf] at hx
    have : f.map.slope * ((t - f.map.off) / f.map.slope) + f.map.off = t := by rw [mul_div_cancel₀ _ hs]; ring
    rw [this] at hx
    rw [← sub_eq_zero, ← sum_sub_distrib] at hx
    rw [← hx]
    exact sum_congr rfl fun k _ => by ring) k (by omega)
  linarith

/-- Fewer coefficients of the same function. -/
theorem Sharp.congr {thr : ℝ} (ht : 0 ≤ thr) {f g : Ope ℝ} (h : Sharp thr f) (hc : ∀ k, g.cf k = f.cf k) (hn : g.num ≤ f.num) : Sharp thr g := fun k => by
  rw [hc]
  rcases h k with h3 | ⟨h3, h4⟩
  · exact Or.inl h3
  · refine Or.inr ⟨h3, fun j => le_trans ?_ (h4 j)⟩
    rw [hc]
    have : (g.num : ℝ) ≤ f.num := by exact_mod_cast hn
    gcongr

/-- A known derivative of the expansion, with coefficients that are not near the threshold. -/
structure Slope (thr : ℝ) (f d : Ope ℝ) : Prop where
  fam : d.fam = f.fam
  map : d.map = f.map
  num : f.num - 1 ≤ d.num
  at_ : ∀ x, HasDerivAt f.val (d.val x) x
  sharp : Sharp thr d

/-- The derivative the code computes, when rounding removes nothing. -/
theorem derivAll_sharp {thr : ℝ} (ht : 0 < thr) {Q : PT → Nat → Rule ℝ} {f d : Ope ℝ} (h : Diffable Q f) (hs : f.map.slope ≠ 0) (hf : Sharp thr f) (hd : Slope thr f d) (hn : 2 < f.num) :
    ∃ r, derivAll thr Real.sqrt Q f = .ok r ∧ r.WF ∧ r.fam = f.fam ∧ r.map = f.map ∧ r.lb = f.lb ∧ r.ub = f.ub ∧ r.num ≤ f.num - 1 ∧ (∀ k, r.cf k = d.cf k) ∧
      Sharp thr r := by
  have key : ∀ c q d' r : Ope ℝ, (∀ x, c.val x = f.val x) → Rounded thr c q → (∀ x, HasDerivAt q.val (d'.val x) x) → Rounded thr d' r → d'.WF → c.WF →
      d'.num = max 1 (q.num - 1) → derivAll thr Real.sqrt Q f = .ok r → d'.fam = f.fam → d'.map = f.map → d'.lb = f.lb → d'.ub = f.ub → q.num ≤ f.num → c.num = f.num →
      (∀ k, c.cf k = f.cf k) → ∃ r, derivAll thr Real.sqrt Q f = .ok r ∧ r.WF ∧ r.fam = f.fam ∧ r.map = f.map ∧ r.lb = f.lb ∧ r.ub = f.ub ∧ r.num ≤ f.num - 1 ∧
      (∀ k, r.cf k = d.cf k) ∧ Sharp thr r := by
    intro c q d' r hc hq hd' hr dw cw dn e ef em el eu en cn ccf
    have cs : Sharp thr c := hf.congr ht.le ccf (by omega)
    obtain ⟨qc, -⟩ := hq.sharp ht.le cs
    have qv : q.val = f.val := funext fun x => by rw [val_congr hq.fam hq.map qc, hc]
    have dv : ∀ x, d'.val x = d.val x := fun x => by
      have h1 := hd' x
      rw [qv] at h1
      exact h1.unique (hd.at_ x)
    have dc : ∀ k, d'.cf k = d.cf k := cf_unique (by rw [ef]; exact h.lead) (by rw [hd.fam, ef]) (by rw [hd.map, em]) (by rw [em]; exact hs) dv
    have ds : Sharp thr d' := hd.sharp.congr ht.le dc (by have := hd.num; omega)
    obtain ⟨rc, rs⟩ := hr.sharp ht.le ds
    exact ⟨r, e, hr.wf dw, by rw [hr.fam, ef], by rw [hr.map, em], by rw [hr.lb, el], by rw [hr.ub, eu], by have := hr.le; omega, fun k => by rw [rc, dc], rs⟩
  by_cases hp : f.fam.pt = .leg
  · obtain ⟨c, q, d', r, hc, hq, hd', hr, dw, cw, dn, e, ef, em, el, eu, ek, en, cn, ccf⟩ := deriv_leg thr (derivOther Q) h.wf (h.leg hp) h.krist
    exact key c q d' r hc hq hd' hr dw cw dn e (by rw [ef, h.leg hp]) em el eu en cn ccf
  · obtain ⟨c, q, d', r, hc, hq, hd', hr, dw, cw, dn, e, ef, em, el, eu, ek, en, cn, ccf⟩ := derivAll_other thr h.wf hp h.lead h.krist h.inv (h.proj hp)
    exact key c q d' r hc hq hd' hr dw cw dn e ef em el eu en cn ccf

/-- The loop over the candidates keeps the best. -/
theorem candLoop_ok {T : Tools ℝ} {g φ : ℝ → ℝ} {bt : ℝ → ℝ → Bool} (hb : ∀ a b, bt a b = decide (φ b < φ a)) {p : Ope ℝ} (hw : p.WF) (hk : p.krist = false) (l : List ℝ) (a : ℝ × ℝ)
    (ha : a.1 = g (p.val a.2)) : ∃ r, candLoop T g bt p l a = .ok r ∧ r.1 = g (p.val r.2) ∧ (r.2 = a.2 ∨ r.2 ∈ l) ∧ φ a.1 ≤ φ r.1 ∧ ∀ y ∈ l, φ (g (p.val y)) ≤ φ r.1 := by
  obtain ⟨r, e, h1, h2, h3, h4⟩ := forN_spec (n := l.length) (body := fun ii (a : ℝ × ℝ) => do
      let r ← rd l ii
      let t ← eval T.sq p r
      pure (if bt (g t) a.1 then (g t, r) else a)) (s := a)
    (I := fun i (s : ℝ × ℝ) => s.1 = g (p.val s.2) ∧ (s.2 = a.2 ∨ s.2 ∈ l) ∧ φ a.1 ≤ φ s.1 ∧ ∀ (j : Nat) (hj : j < l.length), j < i → φ (g (p.val l[j])) ≤ φ s.1)
    ⟨ha, Or.inl rfl, le_rfl, fun j hj h => by omega⟩ (by
      rintro i hi s ⟨h1, h2, h3, h4⟩
      refine ⟨if bt (g (p.val l[i])) s.1 then (g (p.val l[i]), l[i]) else s, ?_, ?_⟩
      · rw [rd_of_getElem? (List.getElem?_eq_getElem hi), bind_ok, eval_value _ hw hk, bind_ok]; rfl
      · rw [hb]
        by_cases hc : φ s.1 < φ (g (p.val l[i]))
        · rw [decide_eq_true hc, if_pos rfl]
          refine ⟨rfl, Or.inr (List.getElem_mem hi), h3.trans hc.le, fun j hj hji => ?_⟩
          rcases Nat.lt_succ_iff_lt_or_eq.1 hji with h | h
          · exact (h4 j hj h).trans hc.le
          · subst h; exact le_rfl
        · rw [decide_eq_false hc, if_neg (by simp)]
          refine ⟨h1, h2, h3, fun j hj hji => ?_⟩
          rcases Nat.lt_succ_iff_lt_or_eq.1 hji with h | h
          · exact h4 j hj h
          · subst h; exact not_lt.1 hc)
  refine ⟨r, e, h1, h2, h3, fun y hy => ?_⟩
  obtain ⟨j, hj, rfl⟩ := List.getElem_of_mem hy
  exact h4 j hj hj

/-- Specification: a point of the domain where the score of the value is largest, and the value reported there. -/
def Best (f : Ope ℝ) (g φ : ℝ → ℝ) (r : ℝ × ℝ) : Prop :=
  f.lb ≤ r.2 ∧ r.2 ≤ f.ub ∧ r.1 = g (f.val r.2) ∧ ∀ x, f.lb ≤ x → x ≤ f.ub → φ (g (f.val x)) ≤ φ r.1

/-- Scores whose local maxima along a function are local extrema of the function. -/
def Peaks (ψ : ℝ → ℝ) : Prop := Continuous ψ ∧ ∀ (f : ℝ → ℝ) (x : ℝ), ContinuousAt f x → IsLocalMax (fun y => ψ (f y)) x → IsLocalExtr f x

theorem peaks_id : Peaks id := ⟨continuous_id, fun _ _ _ h => Or.inr h⟩

theorem peaks_neg : Peaks fun v => -v := ⟨continuous_neg, fun f x _ h => Or.inl (by
  have : IsLocalMin (fun y => - -f y) x := h.neg
  simp only [neg_neg] at this
  exact this)⟩

theorem peaks_abs : Peaks fun v => |v| := by
  refine ⟨continuous_abs, fun f x hc h => ?_⟩
  rcases lt_trichotomy (f x) 0 with h1 | h1 | h1
  · refine Or.inl ?_
    filter_upwards [h, hc.eventually_lt_const h1] with y h2 h3
    rw [abs_of_neg h3, abs_of_neg h1] at h2
    linarith
  · refine Or.inr ?_
    filter_upwards [h] with y h2
    rw [h1, abs_zero] at h2
    rw [h1]
    exact (abs_nonpos_iff.1 h2).le
  · refine Or.inr ?_
    filter_upwards [h, hc.eventually_const_lt h1] with y h2 h3
    rwa [abs_of_pos h3, abs_of_pos h1] at h2

/-- The two ends and the critical points suffice. -/
theorem best_of_candidates {f : Ope ℝ} {ψ : ℝ → ℝ} (hψ : Peaks ψ) {D : ℝ → ℝ} (hD : ∀ x, HasDerivAt f.val (D x) x) (hlt : f.lb < f.ub) {m : ℝ}
    (h1 : ψ (f.val f.lb) ≤ m) (h2 : ψ (f.val f.ub) ≤ m) (h3 : (∃ x, D x ≠ 0) → ∀ x, f.lb ≤ x → x ≤ f.ub → D x = 0 → ψ (f.val x) ≤ m) :
    ∀ x, f.lb ≤ x → x ≤ f.ub → ψ (f.val x) ≤ m := by
  have hcont : Continuous f.val := continuous_iff_continuousAt.2 fun x => (hD x).continuousAt
  have key : ∀ x0 ∈ Set.Icc f.lb f.ub, IsMaxOn (fun y => ψ (f.val y)) (Set.Icc f.lb f.ub) x0 → ψ (f.val x0) ≤ m := by
    intro x0 hx0 hmax
    rcases eq_or_lt_of_le hx0.1 with h | h
    · rw [← h]; exact h1
    · rcases eq_or_lt_of_le hx0.2 with h' | h'
      · rw [h']; exact h2
      · have hloc : IsLocalMax (fun y => ψ (f.val y)) x0 := hmax.isLocalMax (Icc_mem_nhds h h')
        have hext := hψ.2 _ _ hcont.continuousAt hloc
        have hz := hext.hasDerivAt_eq_zero (hD x0)
        by_cases hne : ∃ x, D x ≠ 0
        · exact h3 hne x0 hx0.1 hx0.2 hz
        · push Not at hne
          have : f.val x0 = f.val f.lb := is_const_of_deriv_eq_zero (fun x => (hD x).differentiableAt) (fun x => by rw [(hD x).deriv, hne]) _ _
          rw [this]; exact h1
  obtain ⟨x0, hx0, hmax⟩ := isCompact_Icc.exists_isMaxOn ⟨f.lb, Set.left_mem_Icc.2 hlt.le⟩ ((hψ.1.comp hcont).continuousOn (s := Set.Icc f.lb f.ub))
  intro x hx hx'
  exact le_trans (hmax (show x ∈ Set.Icc f.lb f.ub from ⟨hx, hx'⟩)) (key x0 hx0 hmax)

/-- What the search needs besides the function. -/
structure ToolsOk (T : Tools ℝ) : Prop where
  thr : 0 < T.thr
  thr1 : T.thr ≤ 1
  eps : 0 < T.eps
  ti : 0 < T.ti
  td : 0 < T.td
  sq : T.sq = Real.sqrt
  eig : IsEig T.eig

/-- The roots of the derivative are found. -/
def RootsFound (T : Tools ℝ) (f : Ope ℝ) : Prop := 2 < f.num → ∃ d l, derivAll T.thr T.sq T.Q f = .ok d ∧ (∀ x, HasDerivAt f.val (d.val x) x) ∧
  realRoots T.thr T.eps T.ti T.td T.sq T.eig d = .ok l ∧ (∀ y ∈ l, f.lb ≤ y ∧ y ≤ f.ub) ∧
  ((∃ x, d.val x ≠ 0) → ∀ x, f.lb ≤ x → x ≤ f.ub → d.val x = 0 → x ∈ l)

theorem extremum_ok {T : Tools ℝ} {g φ : ℝ → ℝ} {bt : ℝ → ℝ → Bool} (hb : ∀ a b, bt a b = decide (φ b < φ a)) (hψ : Peaks fun v => φ (g v)) {f : Ope ℝ} (hw : f.WF) (hk : f.krist = false)
    (hlt : f.lb < f.ub) (hr : RootsFound T f) : ∃ r, extremum T g bt f = .ok r ∧ Best f g φ r := by
  obtain ⟨a, ea, a1, a2, a3, a4⟩ : ∃ a : ℝ × ℝ, (if bt (g (f.val f.ub)) (g (f.val f.lb)) then (g (f.val f.ub), f.ub) else (g (f.val f.lb), f.lb)) = a ∧ a.1 = g (f.val a.2) ∧
      (a.2 = f.lb ∨ a.2 = f.ub) ∧ φ (g (f.val f.lb)) ≤ φ a.1 ∧ φ (g (f.val f.ub)) ≤ φ a.1 := by
    refine ⟨_, rfl, ?_⟩
    rw [hb]
    by_cases hc : φ (g (f.val f.lb)) < φ (g (f.val f.ub))
    · rw [decide_eq_true hc, if_pos rfl]; exact ⟨rfl, Or.inr rfl, hc.le, le_rfl⟩
    · rw [decide_eq_false hc, if_neg (by simp)]; exact ⟨rfl, Or.inl rfl, le_rfl, not_lt.1 hc⟩
  have start : extremum T g bt f = (if f.num > 2 then do
      let d ← derivAll T.thr T.sq T.Q f
      let l ← realRoots T.thr T.eps T.ti T.td T.sq T.eig d
      candLoop T g bt f l a
    else pure a) := by
    rw [extremum, eval_value _ hw hk, bind_ok, eval_value _ hw hk, bind_ok]
    dsimp only
    rw [ea]
  have aend : f.lb ≤ a.2 ∧ a.2 ≤ f.ub := by rcases a2 with h | h <;> rw [h] <;> exact ⟨by linarith, by linarith⟩
  by_cases hn : f.num > 2
  · obtain ⟨d, l, ed, hd, el, hin, hzero⟩ := hr hn
    obtain ⟨r, er, r1, r2, r3, r4⟩ := candLoop_ok (T := T) (g := g) hb hw hk l a a1
    refine ⟨r, by rw [start, if_pos hn, ed, bind_ok, el, bind_ok, er], ?_, ?_, r1, ?_⟩
    · rcases r2 with h | h
      · rw [h]; exact aend.1
      · exact (hin _ h).1
    · rcases r2 with h | h
      · rw [h]; exact aend.2
      · exact (hin _ h).2
    · exact best_of_candidates hψ hd hlt (a3.trans r3) (a4.trans r3) (fun hne x h1 h2 h3 => r4 x (hzero hne x h1 h2 h3))
  · refine ⟨a, by rw [start, if_neg hn]; rfl, aend.1, aend.2, a1, ?_⟩
    have hd := fun x => val_hasDerivAt f x
    refine best_of_candidates hψ (D := _root_.deriv f.val) (fun x => (hd x).differentiableAt.hasDerivAt) hlt a3 a4 (fun hne x _ _ h3 => ?_)
    obtain ⟨y, hy⟩ := hne
    have : _root_.deriv f.val y = _root_.deriv f.val x := is_const_of_deriv_eq_zero (fun z => (val_linear (by omega) z).differentiableAt)
      (fun z => (val_linear (by omega) z).deriv) _ _
    exact absurd (by rw [this, h3]) hy

/-- C120, what is required of a function and its derivative: no coefficient near the rounding threshold, and the function is not constant
when it has more than three coefficients. -/
structure ExtIn (T : Tools ℝ) (f d : Ope ℝ) : Prop where
  diff : Diffable T.Q f
  dom : OnInt f
  sharp : Sharp T.thr f
  slope : Slope T.thr f d
  nz : f.num ≤ 3 ∨ ∃ k, d.cf k ≠ 0

theorem rootsFound_cheb {T : Tools ℝ} (hT : ToolsOk T) {f d : Ope ℝ} (h : ExtIn T f d) (hp : f.fam = chebFam π)
    (hl : (∀ k, 2 ≤ k → d.cf k = 0) → ¬ (1 - T.thr < -d.cf 0 / d.cf 1 ∧ -d.cf 0 / d.cf 1 ≤ 1)) : RootsFound T f := by
  intro hn
  obtain ⟨r, er, rw', rf, rm, rlb, rub, rn, rc, rs⟩ := derivAll_sharp hT.thr h.diff h.dom.ne h.sharp h.slope hn
  have hd := h.dom
  have ri : OnInt r := ⟨by rw [rlb, rub]; exact hd.lt, by rw [rlb, rm]; exact hd.lo, by rw [rub, rm]; exact hd.hi, by rw [rm]; exact hd.inv⟩
  obtain ⟨l, el, hl1, hl2⟩ := cheb_roots_partial hT.eig hT.thr hT.thr1 hT.eps hT.ti hT.td rw' (by rw [rf, hp]) ri rs
    (fun h2 => by rw [rc, rc]; exact hl fun k hk => by rw [← rc]; exact h2 k hk)
    (by rcases h.nz with h1 | ⟨k, h1⟩
        · exact Or.inl (by omega)
        · exact Or.inr ⟨k, by rw [rc]; exact h1⟩)
  refine ⟨r, l, by rw [hT.sq]; exact er, fun x => ?_, by rw [hT.sq]; exact el, fun y hy => ?_, fun hne x h1 h2 h3 => ?_⟩
  · rw [val_congr (by rw [rf, h.slope.fam]) (by rw [rm, h.slope.map]) rc]; exact h.slope.at_ x
  · have := hl1.inside y hy; rwa [rlb, rub] at this
  · exact hl2 hne x (by rw [rlb]; exact h1) (by rw [rub]; exact h2) h3

theorem rootsFound_leg {T : Tools ℝ} (hT : ToolsOk T) {f d : Ope ℝ} (h : ExtIn T f d) (hp : f.fam = legFam)
    (hl : (∀ k, 2 ≤ k → d.cf k = 0) → d.cf 1 ≠ 0 → d.cf 0 = 0) : RootsFound T f := by
  intro hn
  obtain ⟨r, er, rw', rf, rm, rlb, rub, rn, rc, rs⟩ := derivAll_sharp hT.thr h.diff h.dom.ne h.sharp h.slope hn
  have hd := h.dom
  have ri : OnInt r := ⟨by rw [rlb, rub]; exact hd.lt, by rw [rlb, rm]; exact hd.lo, by rw [rub, rm]; exact hd.hi, by rw [rm]; exact hd.inv⟩
  obtain ⟨l, el, hl1, hl2⟩ := leg_roots_partial hT.eig hT.thr hT.thr1 hT.eps hT.ti hT.td rw' (by rw [rf, hp]) ri rs
    (fun h2 h3 => by rw [rc]; rw [rc] at h3; exact hl (fun k hk => by rw [← rc]; exact h2 k hk) h3)
    (by rcases h.nz with h1 | ⟨k, h1⟩
        · exact Or.inl (by omega)
        · exact Or.inr ⟨k, by rw [rc]; exact h1⟩)
  refine ⟨r, l, by rw [hT.sq]; exact er, fun x => ?_, by rw [hT.sq]; exact el, fun y hy => ?_, fun hne x h1 h2 h3 => ?_⟩
  · rw [val_congr (by rw [rf, h.slope.fam]) (by rw [rm, h.slope.map]) rc]; exact h.slope.at_ x
  · have := hl1.inside y hy; rwa [rlb, rub] at this
  · exact hl2 hne x (by rw [rlb]; exact h1) (by rw [rub]; exact h2) h3

/-- What the three routines return when the roots of the derivative are found: value and place of the largest value, of the smallest value,
and of the largest absolute value over the domain. -/
structure Extrema (T : Tools ℝ) (f : Ope ℝ) : Prop where
  max : ∃ v x, opeMax T f = .ok (v, x) ∧ f.lb ≤ x ∧ x ≤ f.ub ∧ v = f.val x ∧ ∀ y, f.lb ≤ y → y ≤ f.ub → f.val y ≤ v
  min : ∃ v x, opeMin T f = .ok (v, x) ∧ f.lb ≤ x ∧ x ≤ f.ub ∧ v = f.val x ∧ ∀ y, f.lb ≤ y → y ≤ f.ub → v ≤ f.val y
  abs : f.fam.pt ≠ .herm → ∀ (wt : ℝ → ℝ) (n : ℝ), T.thr ≤ n → ∃ v x, opeAbsmax T wt (.ok n) f none = .ok (v, x) ∧ f.lb ≤ x ∧ x ≤ f.ub ∧ v = |f.val x| ∧
    ∀ y, f.lb ≤ y → y ≤ f.ub → |f.val y| ≤ v

theorem extrema_of {T : Tools ℝ} {f : Ope ℝ} (hw : f.WF) (hk : f.krist = false) (hlt : f.lb < f.ub) (hr : RootsFound T f) : Extrema T f := by
  refine ⟨?_, ?_, fun hp wt n hn => ?_⟩
  · obtain ⟨⟨v, x⟩, e, h1, h2, h3, h4⟩ := extremum_ok (T := T) (g := id) (φ := id) (bt := fun a b => decide (b < a)) (fun _ _ => rfl) peaks_id hw hk hlt hr
    exact ⟨v, x, e, h1, h2, h3, h4⟩
  · obtain ⟨⟨v, x⟩, e, h1, h2, h3, h4⟩ := extremum_ok (T := T) (g := id) (φ := fun v => -v) (bt := fun a b => decide (a < b)) (fun a b => decide_eq_decide.2 neg_lt_neg_iff.symm) peaks_neg hw hk hlt hr
    exact ⟨v, x, e, h1, h2, h3, fun y hy hy' => neg_le_neg_iff.1 (h4 y hy hy')⟩
  · obtain ⟨⟨v, x⟩, e, h1, h2, h3, h4⟩ := extremum_ok (T := T) (g := fun v => |v|) (φ := id) (bt := fun a b => decide (b < a)) (fun _ _ => rfl) peaks_abs hw hk hlt hr
    refine ⟨v, x, ?_, h1, h2, h3, h4⟩
    show (if f.fam.pt = .herm then _ else _) = _
    rw [if_neg hp]
    rw [bind_ok, if_neg (not_lt.2 hn)]
    exact e

/-- C120: maximum, minimum and largest absolute value of a Chebyshev expansion over its domain are found. Missing for the full claim:
coefficients near the rounding threshold; constants with more than three coefficients; a quadratic whose vertex is within the threshold of the right end;
functions with norm below the threshold (`absmax_small_counterexample`). -/
theorem cheb_extrema_partial {T : Tools ℝ} (hT : ToolsOk T) {f d : Ope ℝ} (h : ExtIn T f d) (hp : f.fam = chebFam π)
    (hl : (∀ k, 2 ≤ k → d.cf k = 0) → ¬ (1 - T.thr < -d.cf 0 / d.cf 1 ∧ -d.cf 0 / d.cf 1 ≤ 1)) : Extrema T f :=
  extrema_of h.diff.wf h.diff.krist h.dom.lt (rootsFound_cheb hT h hp hl)

/-- C120: the same for Legendre expansions; a quadratic is required to have its vertex in the middle of the domain (see
`leg_max_counterexample`). -/
theorem leg_extrema_partial {T : Tools ℝ} (hT : ToolsOk T) {f d : Ope ℝ} (h : ExtIn T f d) (hp : f.fam = legFam)
    (hl : (∀ k, 2 ≤ k → d.cf k = 0) → d.cf 1 ≠ 0 → d.cf 0 = 0) : Extrema T f :=
  extrema_of h.diff.wf h.diff.krist h.dom.lt (rootsFound_leg hT h hp hl)

/-- C120: functions with at most two coefficients, of any family: no restriction. -/
theorem affine_extrema {T : Tools ℝ} {f : Ope ℝ} (hw : f.WF) (hk : f.krist = false) (hlt : f.lb < f.ub) (hn : f.num ≤ 2) : Extrema T f :=
  extrema_of hw hk hlt (fun h => by omega)

/-- C120: with candidate points of the caller the largest absolute value (weighted for the Hermite family) among them is found. -/
theorem absmax_nodes {T : Tools ℝ} {wt : ℝ → ℝ} {nrm : C ℝ} {f : Ope ℝ} (hw : f.WF) (hk : f.krist = false) {nodes : List ℝ} (hn : nodes ≠ []) :
    ∃ v x, opeAbsmax T wt nrm f (some nodes) = .ok (v, x) ∧ x ∈ nodes ∧ v = |f.val x| ∧
      ∀ y ∈ nodes, (if f.fam.pt = .herm then |f.val y| * wt y else |f.val y|) ≤ (if f.fam.pt = .herm then v * wt x else v) := by
  obtain ⟨x0, tl, rfl⟩ := List.exists_cons_of_ne_nil hn
  set l := x0 :: tl with hl
  set W := fun (x v : ℝ) => if f.fam.pt = .herm then v * wt x else v with hW
  obtain ⟨r, e, h1, h2, h3, h4⟩ := forN_spec (n := l.length) (body := fun ii (s : ℝ × ℝ × ℝ) => do
      let x ← rd l ii
      let v ← eval T.sq f x
      pure (if s.1 < W x |v| then (W x |v|, |v|, x) else s)) (s := (W x0 |f.val x0|, |f.val x0|, x0))
    (I := fun i (s : ℝ × ℝ × ℝ) => s.1 = W s.2.2 s.2.1 ∧ s.2.1 = |f.val s.2.2| ∧ s.2.2 ∈ l ∧ ∀ (j : Nat) (hj : j < l.length), j < i → W l[j] |f.val l[j]| ≤ s.1)
    ⟨rfl, rfl, List.mem_cons_self, fun j hj h => by omega⟩ (by
      rintro i hi s ⟨h1, h2, h3, h4⟩
      refine ⟨if s.1 < W l[i] |f.val l[i]| then (W l[i] |f.val l[i]|, |f.val l[i]|, l[i]) else s, ?_, ?_⟩
      · rw [rd_of_getElem? (List.getElem?_eq_getElem hi), bind_ok, eval_value _ hw hk, bind_ok]; rfl
      · by_cases hc : s.1 < W l[i] |f.val l[i]|
        · rw [if_pos hc]
          refine ⟨rfl, rfl, List.getElem_mem hi, fun j hj hji => ?_⟩
          rcases Nat.lt_succ_iff_lt_or_eq.1 hji with h | h
          · exact (h4 j hj h).trans hc.le
          · subst h; exact le_rfl
        · rw [if_neg hc]
          refine ⟨h1, h2, h3, fun j hj hji => ?_⟩
          rcases Nat.lt_succ_iff_lt_or_eq.1 hji with h | h
          · exact h4 j hj h
          · subst h; exact not_lt.1 hc)
  refine ⟨r.2.1, r.2.2, ?_, h3, h2, fun y hy => ?_⟩
  · show absmaxNodes T.sq wt f l = _
    rw [absmaxNodes, show rd l 0 = .ok x0 from rfl]
    dsimp only
    rw [bind_ok, eval_value _ hw hk, bind_ok, e, bind_ok]
    rfl
  · obtain ⟨j, hj, rfl⟩ := List.getElem_of_mem hy
    have := h4 j hj hj
    rw [h1] at this
    exact this

/-- Without candidate points the first is read all the same. -/
theorem absmax_no_nodes_counterexample {T : Tools ℝ} {wt : ℝ → ℝ} {nrm : C ℝ} (f : Ope ℝ) : opeAbsmax T wt nrm f (some []) = .error .oob := rfl

/-- For a Hermite expansion the largest absolute value is not implemented: the process ends. -/
theorem absmax_herm {T : Tools ℝ} {wt : ℝ → ℝ} {nrm : C ℝ} {big : ℝ} {f : Ope ℝ} (hp : f.fam = hermFam big) : opeAbsmax T wt nrm f none = .error .exit := by
  show (if f.fam.pt = .herm then _ else _) = _
  rw [hp]; rfl

/-- A nonzero function whose norm is below the threshold: the largest absolute value is reported to be zero. -/
theorem absmax_small_counterexample {T : Tools ℝ} (hT : 0 < T.thr) (wt : ℝ → ℝ) : ∃ (f : Ope ℝ) (n : ℝ), f.WF ∧ OnInt f ∧ f.fam = legFam ∧ (∀ x, 0 < f.val x) ∧
    n = √(∫ x in f.lb..f.ub, f.val x ^ 2) ∧ opeAbsmax T wt (.ok n) f none = .ok (0, f.lb) := by
  have hv : ∀ x, (legEx1 [T.thr / 2]).val x = T.thr / 2 := fun x => by simp [legEx1, Ope.val, leg_p, Lg]
  refine ⟨legEx1 [T.thr / 2], _, ⟨le_rfl, le_rfl, le_rfl, fun h => by cases h⟩, ⟨by simp [legEx1], by simp [legEx1], by simp [legEx1], by simp [legEx1]⟩, rfl,
    fun x => by rw [hv]; linarith, rfl, ?_⟩
  have hlt : √(∫ x in (legEx1 [T.thr / 2]).lb..(legEx1 [T.thr / 2]).ub, (legEx1 [T.thr / 2]).val x ^ 2) < T.thr := by
    simp only [hv]
    rw [intervalIntegral.integral_const, show (legEx1 [T.thr / 2]).ub = 1 from rfl, show (legEx1 [T.thr / 2]).lb = -1 from rfl, Real.sqrt_lt' hT, smul_eq_mul]
    nlinarith
  rw [opeAbsmax, if_neg (by show PT.leg ≠ PT.herm; simp), bind_ok, if_pos hlt]
  rfl

theorem sharp_range {thr lo hi : ℝ} {p : Ope ℝ} (h0 : 0 < thr) (h : ∀ k < p.num, p.cf k = 0 ∨ lo ≤ |p.cf k| ∧ |p.cf k| ≤ hi) (h1 : thr < lo) (hh : 0 ≤ hi) (h2 : thr * (p.num * hi) ≤ lo) :
    Sharp thr p := by
  have key : ∀ k, p.cf k = 0 ∨ lo ≤ |p.cf k| ∧ |p.cf k| ≤ hi := fun k => by
    by_cases hk : k < p.num
    · exact h k hk
    · exact Or.inl (cf_ge (by omega))
  intro k
  rcases key k with h | h
  · exact Or.inl h
  · refine Or.inr ⟨by linarith [h.1], fun j => le_trans ?_ (h2.trans h.1)⟩
    have : |p.cf j| ≤ hi := by
      rcases key j with h' | h'
      · rw [h', abs_zero]; exact hh
      · exact h'.2
    gcongr

theorem legEx1_diff {Q : PT → Nat → Rule ℝ} {c : List ℝ} (hc : 1 ≤ c.length) : Diffable Q (legEx1 c) :=
  ⟨⟨hc, le_rfl, le_rfl, fun h => by cases h⟩, fun _ => rfl, Leg.lead, rfl, ⟨by simp [legEx1], by simp [legEx1]⟩, fun h => absurd rfl h⟩

theorem legEx1_on (c : List ℝ) : OnInt (legEx1 c) := ⟨by simp [legEx1], by simp [legEx1], by simp [legEx1], by simp [legEx1]⟩
theorem chebEx_on (c : List ℝ) : OnInt (chebEx c) := ⟨by simp [chebEx], by simp [chebEx], by simp [chebEx], by simp [chebEx]⟩

theorem legEx1_two (a b x : ℝ) : (legEx1 [a, b]).val x = a + b * (√3 * x) := by
  simp [legEx1, Ope.val, sum_range_succ, leg_p, Lg]
  norm_num

theorem legEx1_three (a b c x : ℝ) : (legEx1 [a, b, c]).val x = a + b * (√3 * x) + c * (√5 * ((3 * x ^ 2 - 1) / 2)) := by
  have h2 := Lg_rec 0 x
  have e : Lg 2 x = (3 * x ^ 2 - 1) / 2 := by
    simp [Lg] at h2 ⊢
    linarith
  simp [legEx1, Ope.val, sum_range_succ, leg_p, e]
  simp [Lg]
  norm_num

theorem legEx1_slope {thr a b c : ℝ} (hs : Sharp thr (legEx1 [b * √3, c * √3 * √5])) : Slope thr (legEx1 [a, b, c]) (legEx1 [b * √3, c * √3 * √5]) := by
  refine ⟨rfl, rfl, le_rfl, fun x => ?_, hs⟩
  rw [legEx1_two, show (legEx1 [a, b, c]).val = fun x => a + b * (√3 * x) + c * (√5 * ((3 * x ^ 2 - 1) / 2)) from funext (legEx1_three a b c)]
  have h3 : √3 * √3 = 3 := Real.mul_self_sqrt (by norm_num)
  have h := (((hasDerivAt_id x).const_mul √3).const_mul b).const_add a |>.add
    ((((((hasDerivAt_id x).pow 2).const_mul 3).sub_const 1).div_const 2).const_mul √5 |>.const_mul c)
  refine h.congr_deriv ?_
  dsimp only [id]
  push_cast
  linear_combination -(c * √5 * x) * h3

/-- The maximum of a Legendre quadratic is missed: for coefficients `0, 1, -1` on `[-1, 1]` the maximum is attained at `1/sqrt(15)`, but the code
tries the ends and `1/sqrt(5)` only (the root of the linear derivative is computed without the factor `sqrt(3)`), and the value returned is too small. -/
theorem leg_max_counterexample {T : Tools ℝ} (hT : ToolsOk T) (ht : T.thr ≤ 1 / 20) : ∃ (f : Ope ℝ) (v x y : ℝ), Diffable T.Q f ∧ f.fam = legFam ∧ OnInt f ∧ Sharp T.thr f ∧
    opeMax T f = .ok (v, x) ∧ f.lb ≤ y ∧ y ≤ f.ub ∧ v < f.val y := by
  have s3 : √3 * √3 = 3 := Real.mul_self_sqrt (by norm_num)
  have s5 : √5 * √5 = 5 := Real.mul_self_sqrt (by norm_num)
  have p3 : 0 < √3 := Real.sqrt_pos.2 (by norm_num)
  have p5 : 0 < √5 := Real.sqrt_pos.2 (by norm_num)
  have l3 : 1 < √3 := by nlinarith
  have u3 : √3 < 2 := by nlinarith
  have l5 : 2 < √5 := by nlinarith
  have u5 : √5 < 3 := by nlinarith
  have hpos := hT.thr
  have hf : Sharp T.thr (legEx1 [0, 1, -1]) := sharp_range (lo := 1) (hi := 1) hpos (fun k hk => by
    have : k < 3 := hk
    interval_cases k
    · exact Or.inl rfl
    · exact Or.inr (by show (1 : ℝ) ≤ |1| ∧ |(1 : ℝ)| ≤ 1; simp)
    · exact Or.inr (by show (1 : ℝ) ≤ |-1| ∧ |(-1 : ℝ)| ≤ 1; simp)) (by linarith) zero_le_one
    (by show T.thr * ((3 : ℕ) * 1) ≤ 1; push_cast; linarith)
  have hds : Sharp T.thr (legEx1 [1 * √3, -1 * √3 * √5]) := sharp_range (lo := 1) (hi := 6) hpos (fun k hk => by
    have : k < 2 := hk
    interval_cases k
    · refine Or.inr ?_
      show 1 ≤ |1 * √3| ∧ |1 * √3| ≤ 6
      rw [abs_of_pos (by linarith)]; constructor <;> linarith
    · refine Or.inr ?_
      show 1 ≤ |-1 * √3 * √5| ∧ |-1 * √3 * √5| ≤ 6
      rw [abs_of_neg (by nlinarith)]; constructor <;> nlinarith) (by linarith) (by norm_num) (by show T.thr * ((2 : ℕ) * 6) ≤ 1; push_cast; linarith)
  have hd := legEx1_slope (a := 0) hds
  have hdiff : Diffable T.Q (legEx1 [0, 1, -1]) := legEx1_diff (by simp)
  obtain ⟨r, er, rw', rf, rm, rlb, rub, rn, rc, rs⟩ := derivAll_sharp hpos hdiff (legEx1_on _).ne hf hd (by show 2 < 3; norm_num)
  have c0 : r.cf 0 = √3 := by rw [rc]; show 1 * √3 = √3; ring
  have c1 : r.cf 1 = -(√3 * √5) := by rw [rc]; show -1 * √3 * √5 = _; ring
  have c1' : r.cf 1 ≠ 0 := by rw [c1]; nlinarith
  have rn2 : r.num = 2 := by
    have h1 : r.num ≤ 2 := rn
    by_contra hh
    exact c1' (cf_ge (by omega))
  have root : -r.cf 0 / r.cf 1 = √5 / 5 := by
    rw [c0, c1]; field_simp; linarith
  have el : realRoots T.thr T.eps T.ti T.td T.sq T.eig r = .ok [√5 / 5] := by
    rw [realRoots, show r.fam.pt = .leg by rw [rf]; rfl]
    show famRoots T.thr T.ti T.td (legComp T.sq T.eps) T.eig r = _
    rw [famRoots_lin rw' hpos (by rw [rf]; rfl) (by rw [rf]; rfl) rs rn2 c1', root, if_pos ⟨by linarith, by linarith⟩, clampTo_id (by linarith) (by linarith), rlb, rub]
    show Except.ok [(1 - -1) / 2 * (√5 / 5) + (1 - (1 - -1) / 2 * 1)] = _
    norm_num
  have hv : ∀ x, (legEx1 [0, 1, -1]).val x = √3 * x - √5 * ((3 * x ^ 2 - 1) / 2) := fun x => by rw [legEx1_three]; ring
  have hw := hdiff.wf
  have start : ∃ a : ℝ × ℝ, opeMax T (legEx1 [0, 1, -1]) = candLoop T id (fun a b => decide (b < a)) (legEx1 [0, 1, -1]) [√5 / 5] a ∧ a.1 = (legEx1 [0, 1, -1]).val a.2 ∧
      (a.2 = 1 ∨ a.2 = -1) := by
    refine ⟨if (legEx1 [0, 1, -1]).val (-1) < (legEx1 [0, 1, -1]).val 1 then ((legEx1 [0, 1, -1]).val 1, 1) else ((legEx1 [0, 1, -1]).val (-1), -1), ?_, ?_, ?_⟩
    · rw [opeMax, extremum, eval_value _ hw rfl, bind_ok, eval_value _ hw rfl, bind_ok]
      dsimp only [id]
      rw [if_pos (show (legEx1 [0, 1, -1]).num > 2 by show 3 > 2; norm_num), show derivAll T.thr T.sq T.Q (legEx1 [0, 1, -1]) = .ok r by rw [hT.sq]; exact er, bind_ok, el, bind_ok]
      congr 1
      show (if decide ((legEx1 [0, 1, -1]).val (-1) < (legEx1 [0, 1, -1]).val 1) = true then ((legEx1 [0, 1, -1]).val 1, (1 : ℝ)) else ((legEx1 [0, 1, -1]).val (-1), -1)) = _
      simp only [decide_eq_true_eq]
    · split <;> rfl
    · split
      · exact Or.inl rfl
      · exact Or.inr rfl
  obtain ⟨a, ea, a1, a2⟩ := start
  obtain ⟨q, eq, q1, q2, -⟩ := candLoop_ok (T := T) (g := id) (φ := id) (bt := fun a b => decide (b < a)) (fun _ _ => rfl) hw rfl [√5 / 5] a a1
  have hy : (legEx1 [0, 1, -1]).val (√3 * √5 / 15) = 3 * √5 / 5 := by
    rw [hv, show (√3 * √5 / 15) ^ 2 = (√3 * √3) * (√5 * √5) / 225 by ring, s3, s5]
    linear_combination (√5 / 15) * s3
  refine ⟨legEx1 [0, 1, -1], q.1, q.2, √3 * √5 / 15, hdiff, rfl, legEx1_on _, hf, by rw [ea, eq], ?_, ?_, ?_⟩
  · show (-1 : ℝ) ≤ _; nlinarith
  · show _ ≤ (1 : ℝ); nlinarith
  · rw [hy, q1]
    show (legEx1 [0, 1, -1]).val q.2 < _
    have h : q.2 = 1 ∨ q.2 = -1 ∨ q.2 = √5 / 5 := by
      rcases q2 with h | h
      · rw [h]; rcases a2 with h | h
        · exact Or.inl h
        · exact Or.inr (Or.inl h)
      · exact Or.inr (Or.inr (List.mem_singleton.1 h))
    rcases h with h | h | h
    · rw [h, hv]; nlinarith
    · rw [h, hv]; nlinarith
    · rw [h, hv, show (√5 / 5) ^ 2 = (√5 * √5) / 25 by ring, s5]; nlinarith

theorem exists_tools : ∃ T : Tools ℝ, ToolsOk T ∧ T.thr = 1 / 20 ∧ ∀ N, IsChebGauss N (T.Q .cheb N) := by
  obtain ⟨eig, he⟩ := exists_isEig
  choose Q hQ using exists_isChebGauss
  exact ⟨⟨1 / 20, 1, 1, 1, Real.sqrt, fun _ => Q, eig⟩, ⟨by norm_num, by norm_num, one_pos, one_pos, one_pos, rfl, he⟩, rfl, hQ⟩

/-- A cubic: `T3 = 4x^3 - 3x`. -/
example : ∃ T : Tools ℝ, Extrema T (chebEx [0, 0, 0, 1]) := by
  obtain ⟨T, hT, ht, hQ⟩ := exists_tools
  have hv : (chebEx [0, 0, 0, 1]).val = fun x => 4 * x ^ 3 - 3 * x := funext fun x => by
    simp [chebEx, Ope.val, sum_range_succ, Fam.p, chebFam]; ring
  have hdv : ∀ x, (chebEx [3, 0, 6]).val x = 12 * x ^ 2 - 3 := fun x => by
    simp [chebEx, Ope.val, sum_range_succ, Fam.p, chebFam]; ring
  refine ⟨T, cheb_extrema_partial (d := chebEx [3, 0, 6]) hT ⟨diffable_cheb hQ (by simp), chebEx_on _, ?_, ⟨rfl, rfl, le_rfl, fun x => ?_, ?_⟩, Or.inr ⟨0, by show (3 : ℝ) ≠ 0; norm_num⟩⟩ rfl
    (fun h => absurd (h 2 le_rfl) (by show (6 : ℝ) ≠ 0; norm_num))⟩
  · refine sharp_range (lo := 1) (hi := 1) hT.thr (fun k hk => ?_) (by rw [ht]; norm_num) zero_le_one (by rw [ht]; show (1 / 20 : ℝ) * ((4 : ℕ) * 1) ≤ 1; norm_num)
    have : k < 4 := hk
    interval_cases k
    · exact Or.inl rfl
    · exact Or.inl rfl
    · exact Or.inl rfl
    · exact Or.inr (by show (1 : ℝ) ≤ |1| ∧ |(1 : ℝ)| ≤ 1; simp)
  · rw [hv, hdv]
    have h := (((hasDerivAt_id x).pow 3).const_mul 4).sub ((hasDerivAt_id x).const_mul 3)
    refine h.congr_deriv ?_
    dsimp only [id]
    push_cast
    ring
  · refine sharp_range (lo := 3) (hi := 6) hT.thr (fun k hk => ?_) (by rw [ht]; norm_num) (by norm_num) (by rw [ht]; show (1 / 20 : ℝ) * ((3 : ℕ) * 6) ≤ 3; norm_num)
    have : k < 3 := hk
    interval_cases k
    · exact Or.inr (by show (3 : ℝ) ≤ |3| ∧ |(3 : ℝ)| ≤ 6; norm_num)
    · exact Or.inl rfl
    · exact Or.inr (by show (3 : ℝ) ≤ |6| ∧ |(6 : ℝ)| ≤ 6; norm_num)

/-- A Legendre quadratic with its vertex in the middle. -/
example : ∃ T : Tools ℝ, Extrema T (legEx1 [1, 0, 1]) := by
  obtain ⟨T, hT, ht, -⟩ := exists_tools
  have s3 : √3 * √3 = 3 := Real.mul_self_sqrt (by norm_num)
  have s5 : √5 * √5 = 5 := Real.mul_self_sqrt (by norm_num)
  have p3 : 0 < √3 := Real.sqrt_pos.2 (by norm_num)
  have p5 : 0 < √5 := Real.sqrt_pos.2 (by norm_num)
  refine ⟨T, leg_extrema_partial (d := legEx1 [0 * √3, 1 * √3 * √5]) hT ⟨legEx1_diff (by simp), legEx1_on _, ?_, legEx1_slope ?_, Or.inl le_rfl⟩ rfl (fun _ _ => by show 0 * √3 = 0; ring)⟩
  · refine sharp_range (lo := 1) (hi := 1) hT.thr (fun k hk => ?_) (by rw [ht]; norm_num) zero_le_one (by rw [ht]; show (1 / 20 : ℝ) * ((3 : ℕ) * 1) ≤ 1; norm_num)
    have : k < 3 := hk
    interval_cases k
    · exact Or.inr (by show (1 : ℝ) ≤ |1| ∧ |(1 : ℝ)| ≤ 1; simp)
    · exact Or.inl rfl
    · exact Or.inr (by show (1 : ℝ) ≤ |1| ∧ |(1 : ℝ)| ≤ 1; simp)
  · refine sharp_range (lo := 1) (hi := 6) hT.thr (fun k hk => ?_) (by rw [ht]; norm_num) (by norm_num) (by rw [ht]; show (1 / 20 : ℝ) * ((2 : ℕ) * 6) ≤ 1; norm_num)
    have : k < 2 := hk
    interval_cases k
    · exact Or.inl (by show 0 * √3 = 0; ring)
    · refine Or.inr ?_
      show 1 ≤ |1 * √3 * √5| ∧ |1 * √3 * √5| ≤ 6
      rw [abs_of_pos (by positivity)]; constructor <;> nlinarith

example : ∃ (T : Tools ℝ) (v x : ℝ), opeAbsmax T (fun _ => 1) (.ok 1) (legEx1 [1, 2]) (some [-1, 0, 1]) = .ok (v, x) ∧ |(legEx1 [1, 2]).val 1| ≤ v := by
  obtain ⟨T, -⟩ := exists_tools
  obtain ⟨v, x, e, -, -, h⟩ := absmax_nodes (T := T) (wt := fun _ => 1) (nrm := .ok 1) (f := legEx1 [1, 2]) (legEx1_diff (Q := T.Q) (by simp)).wf rfl (nodes := [-1, 0, 1]) (by simp)
  exact ⟨T, v, x, e, h 1 (by simp)⟩

end C3.Poly

import Verif.Poly.ProdProps
import Verif.Poly.DerivExp

/-! C118: derivatives and second derivatives of expansions as expansions. -/

namespace C3.Poly
open Finset Real

theorem clear_ok {o : Ope ℝ} (ow : o.WF) : ∃ z, clear o = .ok { o with coeff := z } ∧ z.length = o.coeff.length ∧ ∀ k < o.nalloc, z.getD k 0 = 0 := by
  obtain ⟨z, ez, zl, z1, -⟩ := forN_window (n := o.nalloc) (off := 0) (a := o.coeff) (fun _ _ => (0 : ℝ)) (by have := ow.alloc_le; omega)
    (body := fun ii c => wr c ii 0) (fun i hi b hb => by have := ow.alloc_le; rw [wr_ok _ (by omega), Nat.zero_add])
  exact ⟨z, by rw [clear, ez, bind_ok]; rfl, zl, fun k hk => by have := z1 k hk; rwa [Nat.zero_add] at this⟩

theorem val_zero {o : Ope ℝ} (h : ∀ k < o.num, o.coeff.getD k 0 = 0) (x : ℝ) : o.val x = 0 := by
  rw [Ope.val]
  refine sum_eq_zero fun k hk => ?_
  rw [h k (mem_range.1 hk), zero_mul]

theorem val_const {q : Ope ℝ} (h : q.num = 1) (x : ℝ) : HasDerivAt q.val 0 x := by
  have e1 : q.val = fun _ => q.coeff.getD 0 0 * q.fam.p 0 0 := by
    funext y
    rw [Ope.val, h, sum_range_one]; rfl
  rw [e1]
  exact hasDerivAt_const _ _

/-- The derivative of the value as a polynomial in the mapped variable. -/
theorem val_deriv_poly {f : Ope ℝ} (hl : f.fam.Lead) (hp : 2 ≤ f.num) : ∃ q : Polynomial ℝ, q.degree < (f.num - 1 : ℕ) ∧
    ∀ x, HasDerivAt f.val (q.eval (f.map.slope * x + f.map.off)) x := by
  obtain ⟨P, p1, p2⟩ := ser_poly hl (by omega)
  refine ⟨.C f.map.slope * P.derivative, ?_, fun x => ?_⟩
  · by_cases h0 : P.derivative = 0
    · rw [h0, mul_zero, Polynomial.degree_zero]; exact WithBot.bot_lt_coe _
    · have := Polynomial.natDegree_derivative_le P
      refine lt_of_le_of_lt (Polynomial.degree_le_natDegree.trans (Nat.cast_le.2 (Polynomial.natDegree_C_mul_le _ _))) ?_
      by_cases h1 : P.natDegree = 0
      · rw [Polynomial.eq_C_of_natDegree_eq_zero h1, Polynomial.derivative_C] at h0
        exact absurd rfl h0
      · exact_mod_cast (show P.derivative.natDegree < f.num - 1 by omega)
  · have e : f.val = fun x => P.eval (f.map.slope * x + f.map.off) := by
      funext x; rw [Ope.val_ser, p2]
    have hm : HasDerivAt (fun y => f.map.slope * y + f.map.off) f.map.slope x := by
      have h := ((hasDerivAt_id x).const_mul f.map.slope).add_const f.map.off
      rw [mul_one] at h
      exact h
    rw [e, Polynomial.eval_mul, Polynomial.eval_C, mul_comm]
    exact (P.hasDerivAt (f.map.slope * x + f.map.off)).comp x hm

/-- C118: the derivative of a Chebyshev or Hermite expansion, by projection. Up to the two roundings, before and after, it is the derivative
of the function at every point. -/
theorem derivAll_other (thr : ℝ) {Q : PT → Nat → Rule ℝ} {f : Ope ℝ} (hf : f.WF) (hpt : f.fam.pt ≠ .leg) (hl : f.fam.Lead) (hk : f.krist = false) (hm : f.map.Inv)
    (hP : ∀ N, 1 ≤ N → N < f.num → ProjectsAt Q f.fam N) :
    ∃ c q d r : Ope ℝ, (∀ x, c.val x = f.val x) ∧ Rounded thr c q ∧ (∀ x, HasDerivAt q.val (d.val x) x) ∧ Rounded thr d r ∧ d.WF ∧
      c.WF ∧ d.num = max 1 (q.num - 1) ∧ derivAll thr Real.sqrt Q f = .ok r ∧ d.fam = f.fam ∧ d.map = f.map ∧ d.lb = f.lb ∧ d.ub = f.ub ∧ d.krist = false ∧
      q.num ≤ f.num ∧ c.num = f.num ∧ ∀ k, c.cf k = f.cf k := by
  obtain ⟨c, ec, cw, cn, cf, cm, clb, cub, ck, cal, cc⟩ := copy_value hf
  obtain ⟨q, eq, hq, -⟩ := round_ok (thr := thr) cw.pos (cw.num_le.trans cw.alloc_le)
  have qw : q.WF := hq.wf cw
  have qf : q.fam = f.fam := by rw [hq.fam, cf]
  have qm : q.map = f.map := by rw [hq.map, cm]
  have qk : q.krist = false := by rw [hq.krist, ck, hk]
  have qn : q.num ≤ f.num := by rw [← cn]; exact hq.le
  obtain ⟨o, eo, ow, on, of, om, olb, oub, ok, oal, -⟩ := copy_value qw
  have ends : o.fam = f.fam ∧ o.map = f.map ∧ o.lb = f.lb ∧ o.ub = f.ub ∧ o.krist = false ∧ q.num ≤ f.num ∧ c.num = f.num ∧ ∀ k, c.cf k = f.cf k :=
    ⟨by rw [of, qf], by rw [om, qm], by rw [olb, hq.lb, clb], by rw [oub, hq.ub, cub], by rw [ok, qk], qn, cn, cc⟩
  obtain ⟨z, ez, zl, z1⟩ := clear_ok ow
  have hval : ∀ x, c.val x = f.val x := fun x => val_congr cf cm cc x
  have start : derivAll thr Real.sqrt Q f = (if q.num = 1 then round thr { o with coeff := z } else do
      let out ← derivOther Q q { o with num := o.num - 1, coeff := z }
      round thr out) := by
    rw [derivAll, deriv, hk, show cassert (!false) = .ok () from rfl, bind_ok, ec, bind_ok, eq, bind_ok, eo, bind_ok, ez, bind_ok]
    have : q.fam.pt ≠ .leg := by rw [qf]; exact hpt
    cases hh : q.fam.pt with
    | leg => exact absurd hh this
    | cheb => rfl
    | herm => rfl
  have zal : o.nalloc ≤ z.length := by rw [zl]; exact ow.alloc_le
  have hon := ow.num_le
  by_cases h1 : q.num = 1
  · have dw : ({ o with coeff := z } : Ope ℝ).WF := ⟨ow.pos, ow.num_le, zal, ow.cheb⟩
    obtain ⟨r, er, hr, -⟩ := round_ok (thr := thr) dw.pos (dw.num_le.trans dw.alloc_le)
    refine ⟨c, q, { o with coeff := z }, r, hval, hq, fun x => ?_, hr, dw, cw, by dsimp only; omega, by rw [start, if_pos h1, er], ends⟩
    rw [val_zero (o := { o with coeff := z }) (fun k hk => z1 k (lt_of_lt_of_le hk hon))]
    exact val_const h1 x
  · have hp := qw.pos
    have ow' : ({ o with num := o.num - 1, coeff := z } : Ope ℝ).WF := ⟨by dsimp only; omega, by dsimp only; omega, zal, ow.cheb⟩
    obtain ⟨P, p1, p2⟩ := val_deriv_poly (f := q) (by rw [qf]; exact hl) (by omega)
    have key : ∀ A : ℝ → C ℝ, (∀ x, ∃ d, A x = .ok d ∧ HasDerivAt q.val d x) → ∃ r, approx Q A { o with num := o.num - 1, coeff := z } = .ok r ∧ r.WF ∧
        ∀ x, r.val x = P.eval (q.map.slope * x + q.map.off) := fun A hA => by
      have := hP (q.num - 1) (by omega) (by omega) { o with num := o.num - 1, coeff := z } ow' (by dsimp only; rw [of, qf]) (by dsimp only; rw [on])
        (by dsimp only; rw [om, qm]; exact hm) (fun k hk => z1 k (by dsimp only at hk; omega)) P p1 A (fun x => by
          obtain ⟨d, ed, hd⟩ := hA x
          dsimp only
          rw [ed, om, hd.unique (p2 x)])
      obtain ⟨r, r1, r2, r3⟩ := this
      exact ⟨r, r1, r2, fun x => by rw [r3]; dsimp only; rw [om]⟩
    obtain ⟨d, ed, dw, dv⟩ : ∃ r, derivOther Q q { o with num := o.num - 1, coeff := z } = .ok r ∧ r.WF ∧
        ∀ x, r.val x = P.eval (q.map.slope * x + q.map.off) := by
      rw [derivOther]
      cases hh : q.fam.pt with
      | cheb => exact key _ (fun x => chebDerivEval_value qw hh qk x)
      | leg => exact key _ (fun x => derivEval_value qw qk x)
      | herm => exact key _ (fun x => derivEval_value qw qk x)
    obtain ⟨d1, d2, d3, d4, d5, d6, d7⟩ : d.fam = o.fam ∧ d.map = o.map ∧ d.lb = o.lb ∧ d.ub = o.ub ∧ d.krist = o.krist ∧ d.num = o.num - 1 ∧ d.nalloc = o.nalloc := by
      rw [derivOther] at ed
      cases hh : q.fam.pt with
      | cheb => rw [hh] at ed; exact approx_fields ed
      | leg => rw [hh] at ed; exact approx_fields ed
      | herm => rw [hh] at ed; exact approx_fields ed
    obtain ⟨r, er, hr, -⟩ := round_ok (thr := thr) dw.pos (dw.num_le.trans dw.alloc_le)
    refine ⟨c, q, d, r, hval, hq, fun x => by rw [dv]; exact p2 x, hr, dw, cw, by omega, by rw [start, if_neg h1, ed, bind_ok, er], ?_⟩
    rw [d1, d2, d3, d4, d5]
    exact ends

/-- What the differentiation of an expansion needs. -/
structure Diffable (Q : PT → Nat → Rule ℝ) (f : Ope ℝ) : Prop where
  wf : f.WF
  leg : f.fam.pt = .leg → f.fam = legFam
  lead : f.fam.Lead
  krist : f.krist = false
  inv : f.map.Inv
  proj : f.fam.pt ≠ .leg → ∀ N, 1 ≤ N → N < f.num → ProjectsAt Q f.fam N

/-- C118: without a threshold the derivative is exact at every point, for all three families. -/
theorem derivAll_exact {Q : PT → Nat → Rule ℝ} {f : Ope ℝ} (h : Diffable Q f) :
    ∃ r, derivAll 0 Real.sqrt Q f = .ok r ∧ (∀ x, HasDerivAt f.val (r.val x) x) ∧ r.WF ∧ r.fam = f.fam ∧ r.map = f.map ∧ r.lb = f.lb ∧ r.ub = f.ub ∧
      r.krist = false ∧ r.num ≤ max 1 (f.num - 1) := by
  by_cases hp : f.fam.pt = .leg
  · obtain ⟨r, e, h1, h2, h3, h4⟩ := deriv_leg_exact (derivOther Q) h.wf (h.leg hp) h.krist
    exact ⟨r, e, h1, h2, by rw [h3, h.leg hp], h4⟩
  · obtain ⟨c, q, d, r, hc, hq, hd, hr, dw, cw, dn, e, ef, em, el, eu, ek, en, cn, -⟩ := derivAll_other 0 h.wf hp h.lead h.krist h.inv (h.proj hp)
    refine ⟨r, e, fun x => ?_, hr.wf dw, by rw [hr.fam, ef], by rw [hr.map, em], by rw [hr.lb, el], by rw [hr.ub, eu], by rw [hr.krist, ek], by have := hr.le; omega⟩
    have e1 : q.val = f.val := funext fun y => by rw [hq.exact0, hc]
    rw [hr.exact0, ← e1]
    exact hd x

/-- C118: the second derivative of a Legendre or Hermite expansion is exact. -/
theorem dderiv_exact {Q : PT → Nat → Rule ℝ} {f : Ope ℝ} (h : Diffable Q f) (hpt : f.fam.pt ≠ .cheb) :
    ∃ r, dderiv 0 Real.sqrt Q f = .ok r ∧ (∀ x, HasDerivAt (_root_.deriv f.val) (r.val x) x) ∧ r.WF ∧ r.fam = f.fam ∧ r.map = f.map ∧ r.lb = f.lb ∧
      r.ub = f.ub ∧ r.krist = false := by
  obtain ⟨c, ec, cw, cn, cf, cm, clb, cub, ck, cal, cc⟩ := copy_value h.wf
  obtain ⟨q, eq, hq, -⟩ := round_ok (thr := 0) cw.pos (cw.num_le.trans cw.alloc_le)
  have qw : q.WF := hq.wf cw
  have qf : q.fam = f.fam := by rw [hq.fam, cf]
  have qm : q.map = f.map := by rw [hq.map, cm]
  have qk : q.krist = false := by rw [hq.krist, ck, h.krist]
  have qn : q.num ≤ f.num := by rw [← cn]; exact hq.le
  obtain ⟨o, eo, ow, on, of, om, olb, oub, ok, oal, -⟩ := copy_value qw
  obtain ⟨z, ez, zl, z1⟩ := clear_ok ow
  have e1 : q.val = f.val := funext fun y => by rw [hq.exact0]; exact val_congr cf cm cc y
  have hs : q.fam.pt ≠ .cheb := by rw [qf]; exact hpt
  have start : dderiv 0 Real.sqrt Q f = (if q.num < 2 then pure { o with coeff := z } else do
      let t ← derivAll 0 Real.sqrt Q q
      let out ← derivAll 0 Real.sqrt Q t
      round 0 out) := by
    rw [dderiv, h.krist, show cassert (!false) = .ok () from rfl, bind_ok, ec, bind_ok, eq, bind_ok, eo, bind_ok, ez, bind_ok]
    cases hh : q.fam.pt with
    | cheb => exact absurd hh hs
    | leg => rfl
    | herm => rfl
  have zal : o.nalloc ≤ z.length := by rw [zl]; exact ow.alloc_le
  by_cases h2 : q.num < 2
  · refine ⟨{ o with coeff := z }, by rw [start, if_pos h2]; rfl, fun x => ?_, ⟨ow.pos, ow.num_le, zal, ow.cheb⟩, by rw [of, qf], by rw [om, qm],
      by rw [olb, hq.lb, clb], by rw [oub, hq.ub, cub], by rw [ok, qk]⟩
    rw [val_zero (o := { o with coeff := z }) (fun k hk => z1 k (lt_of_lt_of_le hk ow.num_le)), ← e1,
      show _root_.deriv q.val = fun _ => 0 from funext fun y => (val_const (by have := qw.pos; omega) y).deriv]
    exact hasDerivAt_const _ _
  · obtain ⟨t, et, t1, tw, tf, tm, tl, tu, tk, tn⟩ := derivAll_exact (Q := Q) (f := q)
      ⟨qw, fun hh => by rw [qf] at hh ⊢; exact h.leg hh, by rw [qf]; exact h.lead, qk, by rw [qm]; exact h.inv,
        fun hh N n1 n2 => by rw [qf] at hh ⊢; exact h.proj hh N n1 (by omega)⟩
    obtain ⟨r, er, r1, rw', rf, rm, rl, ru, rk, rn⟩ := derivAll_exact (Q := Q) (f := t)
      ⟨tw, fun hh => by rw [tf, qf] at hh ⊢; exact h.leg hh, by rw [tf, qf]; exact h.lead, tk, by rw [tm, qm]; exact h.inv,
        fun hh N n1 n2 => by rw [tf, qf] at hh ⊢; exact h.proj hh N n1 (by omega)⟩
    obtain ⟨s, es, hss, -⟩ := round_ok (thr := 0) rw'.pos (rw'.num_le.trans rw'.alloc_le)
    refine ⟨s, by rw [start, if_neg h2, et, bind_ok, er, bind_ok, es], fun x => ?_, hss.wf rw', by rw [hss.fam, rf, tf, qf], by rw [hss.map, rm, tm, qm],
      by rw [hss.lb, rl, tl, hq.lb, clb], by rw [hss.ub, ru, tu, hq.ub, cub], by rw [hss.krist, rk]⟩
    rw [hss.exact0, ← e1, show _root_.deriv q.val = t.val from funext fun y => (t1 y).deriv]
    exact r1 x

/-- The second derivative of the value as a polynomial in the mapped variable. -/
theorem val_dderiv_poly {f : Ope ℝ} (hl : f.fam.Lead) (hp : 3 ≤ f.num) : ∃ q : Polynomial ℝ, q.degree < (f.num - 2 : ℕ) ∧
    ∀ x, HasDerivAt (_root_.deriv f.val) (q.eval (f.map.slope * x + f.map.off)) x := by
  obtain ⟨P, p1, p2⟩ := val_deriv_poly hl (show 2 ≤ f.num by omega)
  refine ⟨.C f.map.slope * P.derivative, ?_, fun x => ?_⟩
  · by_cases h0 : P.derivative = 0
    · rw [h0, mul_zero, Polynomial.degree_zero]; exact WithBot.bot_lt_coe _
    · have hP : P ≠ 0 := fun h => h0 (by rw [h, Polynomial.derivative_zero])
      have n1 : P.natDegree < f.num - 1 := by rw [Polynomial.degree_eq_natDegree hP] at p1; exact_mod_cast p1
      have := Polynomial.natDegree_derivative_le P
      refine lt_of_le_of_lt (Polynomial.degree_le_natDegree.trans (Nat.cast_le.2 (Polynomial.natDegree_C_mul_le _ _))) ?_
      by_cases h1 : P.natDegree = 0
      · rw [Polynomial.eq_C_of_natDegree_eq_zero h1, Polynomial.derivative_C] at h0
        exact absurd rfl h0
      · exact_mod_cast (show P.derivative.natDegree < f.num - 2 by omega)
  · have e : _root_.deriv f.val = fun x => P.eval (f.map.slope * x + f.map.off) := by
      funext x; exact (p2 x).deriv
    have hm : HasDerivAt (fun y => f.map.slope * y + f.map.off) f.map.slope x := by
      have h := ((hasDerivAt_id x).const_mul f.map.slope).add_const f.map.off
      rw [mul_one] at h
      exact h
    rw [e, Polynomial.eval_mul, Polynomial.eval_C, mul_comm]
    exact (P.hasDerivAt (f.map.slope * x + f.map.off)).comp x hm

/-- An expansion of order at most one has second derivative zero. -/
theorem val_linear {q : Ope ℝ} (h : q.num ≤ 2) (x : ℝ) : HasDerivAt (_root_.deriv q.val) 0 x := by
  have := val_hasDerivAt2 q x
  rwa [show (∑ k ∈ range q.num, q.coeff.getD k 0 * ddp q.fam k (q.map.map x)) = 0 from sum_eq_zero fun k hk => by
    have := mem_range.1 hk
    have : k = 0 ∨ k = 1 := by omega
    rcases this with rfl | rfl <;> exact mul_zero _, zero_mul] at this

/-- The projection onto no polynomials at all of the zero function (Chebyshev). -/
theorem approx_nothing {Q : PT → Nat → Rule ℝ} {A : ℝ → C ℝ} {o : Ope ℝ} (hc : o.fam = chebFam π) (hn : o.num = 0) (hQ : Q .cheb 0 = ⟨[], []⟩) (hA : ∀ x, A x = .ok 0)
    (hl : 1 ≤ o.coeff.length) (h0 : o.coeff.getD 0 0 = 0) : approx Q A o = .ok o := by
  have hr : approxRule Q o = ⟨[0], [0]⟩ := by rw [approxRule, hc, hn]; show (⟨(Q .cheb 0).pts ++ [0], (Q .cheb 0).wts ++ [0]⟩ : Rule ℝ) = _; rw [hQ]; rfl
  obtain ⟨fam, num, lb, ub, map, na, co, kr⟩ := o
  dsimp only at hc hn hl h0
  subst hc hn
  obtain ⟨v, co, rfl⟩ := List.exists_cons_of_length_pos hl
  have hv : v = 0 := h0
  subst hv
  rw [approx]
  dsimp only
  rw [hr]
  simp only [Nat.zero_add, forN_succ, forN_zero, bind_ok, hA]
  simp [rd, wr, construct, C3.Lin.dv, chebFam, forN_succ, forN_zero, pi_ne_zero, bind_ok]

/-- C118: the second derivative of a Chebyshev expansion is exact when the mapping to [-1,1] does not stretch, when the expansion is
linear, or when a coefficient of order at least three is nonzero. Missing: quadratic expansions on domains of length other than two, for which the
claim is false (`dderiv_counterexample`). -/
theorem dderiv_cheb_partial {Q : PT → Nat → Rule ℝ} {f : Ope ℝ} (h : Diffable Q f) (hc : f.fam = chebFam π) (hQ : Q .cheb 0 = ⟨[], []⟩)
    (hs : f.map.slope * f.map.slope = 1 ∨ f.num ≤ 2 ∨ ∃ k, 3 ≤ k ∧ f.cf k ≠ 0) :
    ∃ r, dderiv 0 Real.sqrt Q f = .ok r ∧ (∀ x, HasDerivAt (_root_.deriv f.val) (r.val x) x) ∧ r.fam = f.fam ∧ r.map = f.map ∧ r.lb = f.lb ∧
      r.ub = f.ub ∧ r.krist = false ∧ 1 ≤ r.num := by
  obtain ⟨c, ec, cw, cn, cf, cm, clb, cub, ck, cal, cc⟩ := copy_value h.wf
  obtain ⟨q, eq, hq, -⟩ := round_ok (thr := 0) cw.pos (cw.num_le.trans cw.alloc_le)
  have qw : q.WF := hq.wf cw
  have qf : q.fam = f.fam := by rw [hq.fam, cf]
  have qm : q.map = f.map := by rw [hq.map, cm]
  have qk : q.krist = false := by rw [hq.krist, ck, h.krist]
  have qn : q.num ≤ f.num := by rw [← cn]; exact hq.le
  have qpt : q.fam.pt = .cheb := by rw [qf, hc]; rfl
  have hpos := qw.pos
  obtain ⟨o, eo, ow, on, of, om, olb, oub, ok, oal, -⟩ := copy_value qw
  obtain ⟨z, ez, zl, z1⟩ := clear_ok ow
  have e1 : q.val = f.val := funext fun y => by rw [hq.exact0]; exact val_congr cf cm cc y
  have start : dderiv 0 Real.sqrt Q f = (if q.num < 2 then pure { o with coeff := z } else do
      let out ← approx Q (chebDDerivEval q) { o with num := o.num - 2, coeff := z }
      round 0 out) := by
    rw [dderiv, h.krist, show cassert (!false) = .ok () from rfl, bind_ok, ec, bind_ok, eq, bind_ok, eo, bind_ok, ez, bind_ok]
    rw [qpt]
  have zal : o.nalloc ≤ z.length := by rw [zl]; exact ow.alloc_le
  have hon := ow.num_le
  have ends : o.fam = f.fam ∧ o.map = f.map ∧ o.lb = f.lb ∧ o.ub = f.ub ∧ o.krist = false :=
    ⟨by rw [of, qf], by rw [om, qm], by rw [olb, hq.lb, clb], by rw [oub, hq.ub, cub], by rw [ok, qk]⟩
  obtain ⟨o1, o2, o3, o4, o5⟩ := ends
  by_cases h2 : q.num < 2
  · refine ⟨{ o with coeff := z }, by rw [start, if_pos h2]; rfl, fun x => ?_, o1, o2, o3, o4, o5, ow.pos⟩
    rw [val_zero (o := { o with coeff := z }) (fun k hk => z1 k (lt_of_lt_of_le hk ow.num_le)), ← e1]
    exact val_linear (by omega) x
  · by_cases h3 : q.num = 2
    · have ea : approx Q (chebDDerivEval q) { o with num := o.num - 2, coeff := z } = .ok { o with num := o.num - 2, coeff := z } :=
        approx_nothing (by dsimp only; rw [o1, hc]) (by dsimp only; omega) hQ
          (fun x => by rw [chebDDerivEval, qk, if_pos (by omega)]; rfl) (by dsimp only; omega) (z1 0 (by omega))
      obtain ⟨v, w, ew⟩ := List.exists_cons_of_length_pos (show 0 < z.length by omega)
      have er : round 0 { o with num := o.num - 2, coeff := z } = .ok { o with num := 1, coeff := z } := by
        have : o.num - 2 = 0 := by omega
        rw [this, round, maxAbs]
        dsimp only
        rw [ew]
        simp [rd, roundCut, roundNum, forN_zero, bind_ok]
        simp [forR, forN_zero, bind_ok]
      refine ⟨{ o with num := 1, coeff := z }, by rw [start, if_neg h2, ea, bind_ok, er], fun x => ?_, o1, o2, o3, o4, o5, le_rfl⟩
      rw [val_zero (o := { o with num := 1, coeff := z }) (fun k hk => z1 k (by dsimp only at hk; omega)), ← e1]
      exact val_linear (by omega) x
    · have ow' : ({ o with num := o.num - 2, coeff := z } : Ope ℝ).WF := ⟨by dsimp only; omega, by dsimp only; omega, zal, ow.cheb⟩
      obtain ⟨P, p1, p2⟩ := val_dderiv_poly (f := q) (by rw [qf]; exact h.lead) (by omega)
      have hslope : q.num = 3 → q.map.slope * q.map.slope = 1 := fun h3' => by
        rcases hs with hs | hs | ⟨k, k1, k2⟩
        · rw [qm]; exact hs
        · omega
        · exfalso
          have ek : q.cf k = f.cf k := by
            rw [← cc]
            have := hq.cf_le (M := ∑ k ∈ range c.num, |c.cf k|) le_rfl
              (fun k hk => single_le_sum (f := fun k => |c.cf k|) (fun _ _ => abs_nonneg _) (mem_range.2 hk)) k
            rw [zero_mul] at this
            exact sub_eq_zero.1 (abs_eq_zero.1 (le_antisymm this (abs_nonneg _)))
          exact k2 (by rw [← ek]; exact cf_ge (by omega))
      obtain ⟨d, ed, dw, dval⟩ := h.proj (by rw [hc]; simp [chebFam]) (q.num - 2) (by omega) (by omega) { o with num := o.num - 2, coeff := z } ow' o1 (by dsimp only; rw [on])
        (by dsimp only; rw [o2]; exact h.inv) (fun k hk => z1 k (by dsimp only at hk; omega)) P p1 (chebDDerivEval q) (fun x => by
          obtain ⟨d, ed, hd⟩ := chebDDerivEval_value_partial qw qpt qk hslope x
          dsimp only
          rw [ed, om, hd.unique (p2 x)])
      dsimp only at dval
      rw [om] at dval
      obtain ⟨d1, d2, d3, d4, d5, d6, d7⟩ := approx_fields ed
      obtain ⟨r, er, hr, -⟩ := round_ok (thr := 0) dw.pos (dw.num_le.trans dw.alloc_le)
      refine ⟨r, by rw [start, if_neg h2, ed, bind_ok, er], fun x => ?_, by rw [hr.fam, d1, o1], by rw [hr.map, d2, o2], by rw [hr.lb, d3, o3],
        by rw [hr.ub, d4, o4], by rw [hr.krist, d5, o5], hr.pos⟩
      rw [hr.exact0, dval, ← e1]
      exact p2 x

/-- The Chebyshev polynomial of order two on [0,1] is 8 x^2 - 8 x + 1; its second derivative comes out as 4 instead of 16. -/
theorem dderiv_counterexample {Q : PT → Nat → Rule ℝ} (hQ : IsChebGauss 1 (Q .cheb 1)) : ∃ f r : Ope ℝ, f.WF ∧ f.fam = chebFam π ∧ f.krist = false ∧ f.map.Inv ∧
    f.lb = 0 ∧ f.ub = 1 ∧ (∀ x, f.val x = 8 * x ^ 2 - 8 * x + 1) ∧ dderiv 0 Real.sqrt Q f = .ok r ∧ ∀ x, r.val x = 4 := by
  obtain ⟨f, hf⟩ : ∃ f : Ope ℝ, f = ⟨chebFam π, 3, 0, 1, ⟨2, -1, 1 / 2, 1 / 2⟩, 3, [0, 0, 1], false⟩ := ⟨_, rfl⟩
  have fw : f.WF := by rw [hf]; exact ⟨by decide, by decide, by decide, fun _ => ⟨π, rfl⟩⟩
  have fi : f.map.Inv := by rw [hf]; exact ⟨by norm_num, by norm_num⟩
  have fk : f.krist = false := by rw [hf]
  have ff : f.fam = chebFam π := by rw [hf]
  have f2 : f.cf 2 = 1 := by rw [hf]; simp [Ope.cf]
  have fn : f.num = 3 := by rw [hf]
  obtain ⟨c, ec, cw, cn, cf, cm, clb, cub, ck, cal, cc⟩ := copy_value fw
  obtain ⟨q, eq, hq, -⟩ := round_ok (thr := 0) cw.pos (cw.num_le.trans cw.alloc_le)
  have qw : q.WF := hq.wf cw
  have qf : q.fam = f.fam := by rw [hq.fam, cf]
  have qm : q.map = f.map := by rw [hq.map, cm]
  have qk : q.krist = false := by rw [hq.krist, ck, fk]
  have q2 : q.cf 2 = 1 := by
    rw [← f2, ← cc]
    have := hq.cf_le (M := ∑ k ∈ range c.num, |c.cf k|) le_rfl
      (fun k hk => single_le_sum (f := fun k => |c.cf k|) (fun _ _ => abs_nonneg _) (mem_range.2 hk)) 2
    rw [zero_mul] at this
    exact sub_eq_zero.1 (abs_eq_zero.1 (le_antisymm this (abs_nonneg _)))
  have qn : q.num = 3 := by
    have h1 : q.num ≤ 3 := by rw [← fn, ← cn]; exact hq.le
    by_contra h
    rw [cf_ge (show q.num ≤ 2 by omega)] at q2
    exact one_ne_zero q2.symm
  have qpt : q.fam.pt = .cheb := by rw [qf, ff]; rfl
  obtain ⟨o, eo, ow, on, of, om, olb, oub, ok, oal, -⟩ := copy_value qw
  obtain ⟨z, ez, zl, z1⟩ := clear_ok ow
  have hon := ow.num_le
  have zal : o.nalloc ≤ z.length := by rw [zl]; exact ow.alloc_le
  have ow' : ({ o with num := o.num - 2, coeff := z } : Ope ℝ).WF := ⟨by dsimp only; omega, by dsimp only; omega, zal, ow.cheb⟩
  have hA : ∀ x, chebDDerivEval q x = .ok 4 := fun x => by
    rw [chebDDerivEval, qk, if_neg (by omega), if_pos qn]
    rw [cf_lt (show 2 < q.num by omega)] at q2
    rw [show cassert (!false) = .ok () from rfl, bind_ok, qw.rdc (show 2 < q.num by omega), bind_ok, q2, one_mul]; rfl
  obtain ⟨d, ed, dw, dval⟩ := projects_cheb hQ { o with num := o.num - 2, coeff := z } ow' (by dsimp only; rw [of, qf, ff]) (by dsimp only; omega)
    (by dsimp only; rw [om, qm]; exact fi) (fun k hk => z1 k (by dsimp only at hk; omega)) (.C 4)
    (lt_of_le_of_lt Polynomial.degree_C_le (by norm_num)) (chebDDerivEval q) (fun x => by rw [hA, Polynomial.eval_C])
  obtain ⟨r, er, hr, -⟩ := round_ok (thr := 0) dw.pos (dw.num_le.trans dw.alloc_le)
  refine ⟨f, r, fw, ff, fk, fi, by rw [hf], by rw [hf], fun x => ?_, ?_, fun x => ?_⟩
  · rw [hf]; simp [Ope.val, sum_range_succ, Fam.p, chebFam]; ring
  · rw [dderiv, fk, show cassert (!false) = .ok () from rfl, bind_ok, ec, bind_ok, eq, bind_ok, eo, bind_ok, ez, bind_ok]
    rw [qpt, if_neg (by omega)]
    dsimp only
    rw [ed, bind_ok, er]
  · rw [hr.exact0, dval, Polynomial.eval_C]

/-- Expansions with Chebyshev-Gauss rules of the library can be differentiated. -/
theorem diffable_cheb {Q : PT → Nat → Rule ℝ} (hQ : ∀ N, IsChebGauss N (Q .cheb N)) {c : List ℝ} (hc : 1 ≤ c.length) : Diffable Q (chebEx c) :=
  ⟨⟨hc, le_rfl, le_rfl, fun _ => ⟨π, rfl⟩⟩, (fun h => by cases h), Cheb.lead, rfl, ⟨by simp [chebEx], by simp [chebEx]⟩, fun _ N _ _ => projects_cheb (hQ N)⟩

example : ∃ (Q : PT → Nat → Rule ℝ) (r s : Ope ℝ), derivAll 0 Real.sqrt Q (chebEx [1, 2, 3, 4]) = .ok r ∧ (∀ x, HasDerivAt (chebEx [1, 2, 3, 4]).val (r.val x) x) ∧
    dderiv 0 Real.sqrt Q (chebEx [1, 2, 3, 4]) = .ok s ∧ ∀ x, HasDerivAt (_root_.deriv (chebEx [1, 2, 3, 4]).val) (s.val x) x := by
  choose Q hQ using exists_isChebGauss
  have hd := diffable_cheb (Q := fun _ => Q) hQ (c := [1, 2, 3, 4]) (by simp)
  obtain ⟨r, e1, e2, -⟩ := derivAll_exact hd
  have h0 : Q 0 = ⟨[], []⟩ := by
    have h1 := (hQ 0).length.1
    have h2 := (hQ 0).length.2
    rw [List.length_eq_zero_iff] at h1 h2
    cases hh : Q 0 with
    | mk p w => rw [hh] at h1 h2; dsimp only at h1 h2; rw [h1, h2]
  obtain ⟨s, s1, s2, -⟩ := dderiv_cheb_partial hd rfl h0 (Or.inl (by simp [chebEx]))
  exact ⟨fun _ => Q, r, s, e1, e2, s1, s2⟩

example (Q : PT → Nat → Rule ℝ) : ∃ r, dderiv 0 Real.sqrt Q (legEx2 [1, 2, 3, 4]) = .ok r ∧ ∀ x, HasDerivAt (_root_.deriv (legEx2 [1, 2, 3, 4]).val) (r.val x) x := by
  obtain ⟨r, e, h, -⟩ := dderiv_exact (Q := Q) (f := legEx2 [1, 2, 3, 4])
    ⟨⟨by show 1 ≤ 4; simp, le_rfl, le_rfl, fun h => by cases h⟩, fun _ => rfl, Leg.lead, rfl, ⟨by simp [legEx2], by simp [legEx2]⟩, fun h => absurd rfl h⟩
    (by show PT.leg ≠ PT.cheb; simp)
  exact ⟨r, e, h⟩

end C3.Poly

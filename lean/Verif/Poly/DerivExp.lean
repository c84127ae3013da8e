/- The derivative of a Legendre expansion as an expansion (property C76). -/
import Verif.Poly.NormProps

set_option linter.unusedSectionVars false

namespace C3.Poly
open Finset Real

/-- Every other index from `ii + 1` on. -/
theorem sum_step2 (F : Nat → ℝ) {n ii : Nat} (h : ii < n) :
    ∑ j ∈ range ((n - ii) / 2), F (ii + 1 + 2 * j) = ∑ m ∈ range n, if ii < m ∧ (m - ii) % 2 = 1 then F m else 0 := by
  rw [← sum_filter]
  refine sum_nbij' (fun j => ii + 1 + 2 * j) (fun m => (m - ii - 1) / 2) ?_ ?_ ?_ ?_ ?_
  · intro j hj; rw [mem_range] at hj; rw [mem_filter, mem_range]; omega
  · intro m hm; rw [mem_filter, mem_range] at hm; rw [mem_range]; omega
  · intro j _; omega
  · intro m hm; rw [mem_filter, mem_range] at hm; omega
  · intro j _; rfl

/-- One entry of the coefficient loop. -/
theorem legInner_ok {p : Ope ℝ} (hp : p.WF) {ii : Nat} (hi : ii < p.num) {out : List ℝ} (hl : ii < out.length) :
    forN ((p.num - ii) / 2) (fun j out => do
      let o ← rd out ii
      let c ← rd p.coeff (ii + 1 + 2 * j)
      wr out ii (o + c * √((2 * (ii + 1 + 2 * j) + 1 : Nat) : ℝ))) out =
    .ok (out.set ii (out.getD ii 0 + ∑ j ∈ range ((p.num - ii) / 2), p.coeff.getD (ii + 1 + 2 * j) 0 * √((2 * (ii + 1 + 2 * j) + 1 : Nat) : ℝ))) := by
  obtain ⟨s, e, h⟩ := forN_spec (n := (p.num - ii) / 2) (body := fun j out => do
      let o ← rd out ii
      let c ← rd p.coeff (ii + 1 + 2 * j)
      wr out ii (o + c * √((2 * (ii + 1 + 2 * j) + 1 : Nat) : ℝ)))
    (I := fun i s => s = out.set ii (out.getD ii 0 + ∑ j ∈ range i, p.coeff.getD (ii + 1 + 2 * j) 0 * √((2 * (ii + 1 + 2 * j) + 1 : Nat) : ℝ)))
    (s := out) (by rw [range_zero, sum_empty, add_zero]; exact (set_getD_self hl).symm)
    (fun j hj s hs => by
      subst hs
      refine ⟨_, ?_, rfl⟩
      rw [rd_getD 0 (by rw [List.length_set]; exact hl), bind_ok, hp.rdc (by omega), bind_ok, wr_ok _ (by rw [List.length_set]; exact hl),
        getD_set' hl, if_pos rfl, List.set_set, sum_range_succ, add_assoc])
  rw [e, h]

/-- The coefficient loop: entry `k` of the derivative. -/
theorem legDerivLoop_ok {p : Ope ℝ} (hp : p.WF) {out : List ℝ} (hl : p.num - 1 ≤ out.length) (hz : ∀ k < p.num - 1, out.getD k 0 = 0) :
    ∃ c, legDerivLoop Real.sqrt p out = .ok c ∧ c.length = out.length ∧
      ∀ k < p.num - 1, c.getD k 0 = (∑ m ∈ range p.num, if k < m ∧ (m - k) % 2 = 1 then p.coeff.getD m 0 * √(2 * m + 1) else 0) * (√(2 * k + 1) * p.map.slope) := by
  obtain ⟨c, e, l, h, -⟩ := forN_spec (n := p.num - 1) (body := fun ii out => do
      let out ← forN ((p.num - ii) / 2) (fun j out => do
        let o ← rd out ii
        let c ← rd p.coeff (ii + 1 + 2 * j)
        wr out ii (o + c * √((2 * (ii + 1 + 2 * j) + 1 : Nat) : ℝ))) out
      let o ← rd out ii
      wr out ii (o * (√((2 * ii + 1 : Nat) : ℝ) * p.map.slope)))
    (I := fun i (s : List ℝ) => s.length = out.length ∧
      (∀ k < i, s.getD k 0 = (∑ m ∈ range p.num, if k < m ∧ (m - k) % 2 = 1 then p.coeff.getD m 0 * √(2 * m + 1) else 0) * (√(2 * k + 1) * p.map.slope)) ∧
      ∀ k, i ≤ k → k < p.num - 1 → s.getD k 0 = 0)
    (s := out) ⟨rfl, fun k hk => absurd hk (by omega), fun k _ hk => hz k hk⟩
    (fun i hi s hs => by
      obtain ⟨sl, s1, s2⟩ := hs
      have hil : i < s.length := by omega
      have e1 := legInner_ok hp (ii := i) (by omega) hil
      have e2 : ∀ a : ℝ, rd (s.set i a) i = .ok a := fun a => by
        rw [rd_getD 0 (by rw [List.length_set]; exact hil), getD_set' hil, if_pos rfl]
      refine ⟨_, by rw [e1, bind_ok, e2, bind_ok, wr_ok _ (by rw [List.length_set]; exact hil), List.set_set], by rw [List.length_set, sl], ?_, ?_⟩
      · intro k hk
        rw [getD_set' hil]
        by_cases hki : k = i
        · subst hki
          rw [if_pos rfl, s2 k le_rfl hi, zero_add, sum_step2 (fun m => p.coeff.getD m 0 * √((2 * m + 1 : Nat) : ℝ)) (by omega)]
          push_cast; rfl
        · rw [if_neg hki, s1 k (by omega)]
      · intro k hk1 hk2
        rw [getD_set' hil, if_neg (by omega), s2 k (by omega) hk2])
  exact ⟨c, e, l, h⟩

/-- C76: the derivative of a Legendre expansion. The coefficients are rounded (as by `round`), the rounded expansion is differentiated exactly, and the
result is rounded; nothing else is lost, and the call always succeeds. -/
theorem deriv_leg (thr : ℝ) (other : Ope ℝ → Ope ℝ → C (Ope ℝ)) {f : Ope ℝ} (hf : f.WF) (hfam : f.fam = legFam) (hk : f.krist = false) :
    ∃ c q d r : Ope ℝ, (∀ x, c.val x = f.val x) ∧ Rounded thr c q ∧ (∀ x, HasDerivAt q.val (d.val x) x) ∧ Rounded thr d r ∧ d.WF ∧
      c.WF ∧ d.num = max 1 (q.num - 1) ∧ deriv thr Real.sqrt other f = .ok r ∧ d.fam = legFam ∧ d.map = f.map ∧ d.lb = f.lb ∧ d.ub = f.ub ∧ d.krist = false ∧
      q.num ≤ f.num ∧ c.num = f.num ∧ ∀ k, c.cf k = f.cf k := by
  obtain ⟨c, ec, cw, cn, cf, cm, clb, cub, ck, cal, cc⟩ := copy_value hf
  obtain ⟨q, eq, hq, -⟩ := round_ok (thr := thr) cw.pos (cw.num_le.trans cw.alloc_le)
  have qw : q.WF := ⟨hq.pos, by rw [hq.nalloc]; exact hq.le.trans cw.num_le, by rw [hq.nalloc, hq.len]; exact cw.alloc_le,
    fun h => by rw [hq.fam] at h ⊢; exact cw.cheb h⟩
  have qf : q.fam = legFam := by rw [hq.fam, cf, hfam]
  obtain ⟨o, eo, ow, on, of, om, olb, oub, ok, oal, -⟩ := copy_value qw
  have ends : o.fam = legFam ∧ o.map = f.map ∧ o.lb = f.lb ∧ o.ub = f.ub ∧ o.krist = false ∧ q.num ≤ f.num ∧ c.num = f.num ∧ ∀ k, c.cf k = f.cf k :=
    ⟨by rw [of, qf], by rw [om, hq.map, cm], by rw [olb, hq.lb, clb], by rw [oub, hq.ub, cub], by rw [ok, hq.krist, ck, hk], by rw [← cn]; exact hq.le, cn, cc⟩
  obtain ⟨z, ez, zl, z1, -⟩ := forN_window (n := o.nalloc) (off := 0) (a := o.coeff) (fun _ _ => (0 : ℝ)) (by have := ow.alloc_le; omega)
    (body := fun ii c => wr c ii 0) (fun i hi b hb => by have := ow.alloc_le; rw [wr_ok _ (by omega), Nat.zero_add])
  have z1' : ∀ k < o.nalloc, z.getD k 0 = 0 := fun k hk => by have := z1 k hk; rwa [Nat.zero_add] at this
  have hval : ∀ x, c.val x = f.val x := fun x => val_congr cf cm cc x
  have start : deriv thr Real.sqrt other f = (if q.num = 1 then round thr { o with coeff := z } else do
      let cc ← legDerivLoop Real.sqrt q z
      round thr { o with num := o.num - 1, coeff := cc }) := by
    rw [deriv, hk, show cassert (!false) = .ok () from rfl, bind_ok, ec, bind_ok, eq, bind_ok, eo, bind_ok, clear, ez, bind_ok]
    simp only [pure_eq_ok, bind_ok]
    rw [show q.fam.pt = .leg by rw [qf]; rfl]
  have zal : o.nalloc ≤ z.length := by rw [zl]; exact ow.alloc_le
  by_cases h1 : q.num = 1
  · have dw : ({ o with coeff := z } : Ope ℝ).WF := ⟨ow.pos, ow.num_le, zal, ow.cheb⟩
    obtain ⟨r, er, hr, -⟩ := round_ok (thr := thr) dw.pos (dw.num_le.trans dw.alloc_le)
    refine ⟨c, q, { o with coeff := z }, r, hval, hq, fun x => ?_, hr, dw, cw, by dsimp only; omega, by rw [start, if_pos h1, er], ends⟩
    have e1 : q.val = fun _ => q.coeff.getD 0 0 * legFam.p 0 0 := by
      funext y
      rw [Ope.val, h1, sum_range_one, qf]; rfl
    have e2 : ({ o with coeff := z } : Ope ℝ).val x = 0 := by
      rw [Ope.val]
      refine sum_eq_zero fun k hk => ?_
      rw [mem_range] at hk
      dsimp only at hk ⊢
      rw [z1' k (lt_of_lt_of_le hk ow.num_le), zero_mul]
    rw [e1, e2]
    exact hasDerivAt_const _ _
  · have hp := qw.pos
    have hon := ow.num_le
    obtain ⟨cc, ecc, ccl, cc1⟩ := legDerivLoop_ok qw (out := z) (by omega) (fun k hk => z1' k (by omega))
    have dw : ({ o with num := o.num - 1, coeff := cc } : Ope ℝ).WF := ⟨by dsimp only; omega, by dsimp only; omega, by dsimp only; omega, ow.cheb⟩
    obtain ⟨r, er, hr, -⟩ := round_ok (thr := thr) dw.pos (dw.num_le.trans dw.alloc_le)
    refine ⟨c, q, { o with num := o.num - 1, coeff := cc }, r, hval, hq, fun x => ?_, hr, dw, cw, by dsimp only; omega,
      by rw [start, if_neg h1, ecc, bind_ok, er], ends⟩
    set y := q.map.slope * x + q.map.off with hy
    have hlin : HasDerivAt (fun x => q.map.slope * x + q.map.off) q.map.slope x := by
      have := ((hasDerivAt_id x).const_mul q.map.slope).add_const q.map.off
      rw [mul_one] at this
      exact this
    have hd : HasDerivAt q.val (∑ k ∈ range q.num, q.coeff.getD k 0 * (dp legFam k y * q.map.slope)) x := by
      have e0 : q.val = fun x => ∑ k ∈ range q.num, q.coeff.getD k 0 * legFam.p k (q.map.slope * x + q.map.off) := by
        funext x; rw [Ope.val, qf]
      rw [e0]
      refine HasDerivAt.fun_sum fun k _ => ?_
      exact ((p_hasDerivAt legFam y k).comp x hlin).const_mul (q.coeff.getD k 0)
    convert hd using 1
    rw [Ope.val]
    dsimp only
    rw [on, of, qf, om, ← hy]
    have e4 : ∀ m ∈ range q.num, q.coeff.getD m 0 * (dp legFam m y * q.map.slope) =
        ∑ k ∈ range (q.num - 1), (if k < m ∧ (m - k) % 2 = 1 then q.coeff.getD m 0 * √(2 * m + 1) else 0) * (√(2 * k + 1) * q.map.slope) * legFam.p k y := by
      intro m hm
      rw [mem_range] at hm
      rw [dp_leg, sum_mul, mul_sum]
      refine (sum_subset (range_subset_range.2 (show m ≤ q.num - 1 by omega)) fun k _ hk => ?_).trans (sum_congr rfl fun k _ => ?_)
      · rw [mem_range] at hk
        rw [if_neg (by omega), zero_mul, mul_zero]
      · by_cases hc : (m - k) % 2 = 1
        · rw [if_pos hc, if_pos ⟨by omega, hc⟩]; ring
        · rw [if_neg hc, if_neg (fun h => hc h.2)]; ring
    rw [sum_congr rfl e4, sum_comm]
    refine sum_congr rfl fun k hk => ?_
    rw [mem_range] at hk
    rw [cc1 k hk, sum_mul, sum_mul]

/-- C76: without a threshold the derivative of a Legendre expansion is exact at every point. -/
theorem deriv_leg_exact (other : Ope ℝ → Ope ℝ → C (Ope ℝ)) {f : Ope ℝ} (hf : f.WF) (hfam : f.fam = legFam) (hk : f.krist = false) :
    ∃ r, deriv 0 Real.sqrt other f = .ok r ∧ (∀ x, HasDerivAt f.val (r.val x) x) ∧ r.WF ∧ r.fam = legFam ∧ r.map = f.map ∧ r.lb = f.lb ∧ r.ub = f.ub ∧
      r.krist = false ∧ r.num ≤ max 1 (f.num - 1) := by
  obtain ⟨c, q, d, r, hc, hq, hd, hr, dw, cw, dn, e, ef, em, el, eu, ek, en, cn, -⟩ := deriv_leg 0 other hf hfam hk
  have exact0 : ∀ {a b : Ope ℝ}, Rounded 0 a b → ∀ x, b.val x = a.val x := fun {a b} h => by
    intro x
    refine val_congr h.fam h.map (fun k => ?_) x
    have := h.cf_le (M := ∑ k ∈ range a.num, |a.cf k|) le_rfl
      (fun k hk => single_le_sum (f := fun k => |a.cf k|) (fun _ _ => abs_nonneg _) (mem_range.2 hk)) k
    rw [zero_mul] at this
    exact sub_eq_zero.1 (abs_eq_zero.1 (le_antisymm this (abs_nonneg _)))
  refine ⟨r, e, fun x => ?_, ⟨hr.pos, by rw [hr.nalloc]; exact hr.le.trans dw.num_le, by rw [hr.nalloc, hr.len]; exact dw.alloc_le,
    fun h => by rw [hr.fam] at h ⊢; exact dw.cheb h⟩, by rw [hr.fam, ef], by rw [hr.map, em], by rw [hr.lb, el], by rw [hr.ub, eu], by rw [hr.krist, ek], ?_⟩
  · have e1 : f.val = q.val := funext fun x => by rw [exact0 hq, hc]
    rw [e1, exact0 hr]
    exact hd x
  · have h1 := hr.le
    have h2 := hq.le
    omega

example (other : Ope ℝ → Ope ℝ → C (Ope ℝ)) : ∃ r, deriv 0 Real.sqrt other exLeg = .ok r ∧ ∀ x, HasDerivAt exLeg.val (r.val x) x := by
  obtain ⟨r, e, h, -⟩ := deriv_leg_exact other exLeg_wf rfl rfl
  exact ⟨r, e, h⟩

end C3.Poly

/- Constructors of polynomial expansions represent the documented functions (property C124). -/
import Verif.Poly.Make
import Verif.Poly.ProdProps
import Verif.Poly.NormProps
import Verif.Poly.AdaptProps

set_option linter.unusedSectionVars false

namespace C3.Poly
open Finset Real
open C3.Lin (dv dv_ok)

/-- What expansions made from options have in common: the mapping does not depend on the number of polynomials, all coefficients are zero. -/
theorem initOpts_all {K : Type} [Field K] [LinearOrder K] [IsStrictOrderedRing K] {o : Opts K} (hv : o.Valid) : ∃ m : SMap K, m.Inv ∧
    (o.fam.pt = .herm → m = ⟨1 / o.std, -o.mean / o.std, o.std, o.mean⟩) ∧
    (o.fam.pt ≠ .herm → m.slope * o.lb + m.off = o.fam.lower ∧ m.slope * o.ub + m.off = o.fam.upper ∧ 0 < m.slope ∧
      o.lb < o.ub) ∧
    ∀ num, initOpts o num = .ok ⟨o.fam, num, o.lb, o.ub, m, num + 50, List.replicate (num + 50) 0, o.krist⟩ := by
  by_cases h : o.fam.pt = .herm
  · have hs := hv.herm h
    refine ⟨⟨1 / o.std, -o.mean / o.std, o.std, o.mean⟩, ⟨one_div_mul_cancel hs, ?_⟩, fun _ => rfl, fun c => absurd h c, fun num => ?_⟩
    · dsimp only; field_simp; ring
    · unfold initOpts init
      rw [h]
      dsimp only
      rw [bind_ok, dv_ok hs, bind_ok, dv_ok hs, bind_ok]; rfl
  · obtain ⟨h1, h2⟩ := hv.other h
    have d1 : o.ub - o.lb ≠ 0 := (sub_pos.2 h2).ne'
    have d2 : 0 < (o.fam.upper - o.fam.lower) / (o.ub - o.lb) := div_pos (sub_pos.2 h1) (sub_pos.2 h2)
    have d3 := d2.ne'
    refine ⟨⟨(o.fam.upper - o.fam.lower) / (o.ub - o.lb), o.fam.upper - (o.fam.upper - o.fam.lower) / (o.ub - o.lb) * o.ub,
      1 / ((o.fam.upper - o.fam.lower) / (o.ub - o.lb)),
      -(o.fam.upper - (o.fam.upper - o.fam.lower) / (o.ub - o.lb) * o.ub) / ((o.fam.upper - o.fam.lower) / (o.ub - o.lb))⟩,
      ⟨mul_one_div_cancel d3, ?_⟩, fun c => absurd c h, fun _ => ⟨?_, ?_, d2, h2⟩, fun num => ?_⟩
    · dsimp only
      rw [mul_div_cancel₀ _ d3]; ring
    · dsimp only; field_simp; ring
    · dsimp only; ring
    · refine initOpts_other o num h (p := ⟨o.fam, num, o.lb, o.ub, _, num + 50, List.replicate (num + 50) 0, false⟩) ?_
      unfold init
      split
      · rename_i c; exact absurd c h
      · rw [dv_ok d1, bind_ok]; dsimp only; rw [dv_ok d3, bind_ok, dv_ok d3, bind_ok]; rfl


theorem Opts.Valid.wf {K : Type} [Field K] [LinearOrder K] [IsStrictOrderedRing K] {o : Opts K} (hv : o.Valid) {num na : Nat} {m : SMap K} {c : List K} {k : Bool} (h : 1 ≤ num) (hn : num ≤ na)
    (hc : na ≤ c.length) : (⟨o.fam, num, o.lb, o.ub, m, na, c, k⟩ : Ope K).WF := ⟨h, hn, hc, hv.cheb⟩

/-- What a new function has in common with the options. -/
structure FromOpts {K : Type} [Field K] [LinearOrder K] (o : Opts K) (num : Nat) (r : Ope K) : Prop where
  wf : r.WF
  fam : r.fam = o.fam
  num : r.num = num
  lb : r.lb = o.lb
  ub : r.ub = o.ub
  krist : r.krist = o.krist
  inv : r.map.Inv

section field
variable {K : Type} [Field K] [LinearOrder K] [IsStrictOrderedRing K]

theorem rep_getD (n k : Nat) : (List.replicate n (0 : K)).getD k 0 = 0 := by
  rw [List.getD_eq_getElem?_getD, List.getElem?_replicate]; split <;> rfl

/-- C124: constants. Values below the threshold give the zero function. -/
theorem constant_value {o : Opts K} (hv : o.Valid) (hk : o.krist = false) (hc : o.fam.c0 ≠ 0) {thr lim a : K} (ha : |a| < lim) (sq : K → K) :
    ∃ r, constant thr lim a o = .ok r ∧ FromOpts o 1 r ∧ ∀ x, eval sq r x = .ok (if |a| < thr then 0 else a) := by
  obtain ⟨m, hm, -, -, e⟩ := initOpts_all hv
  have key : ∀ v, constant thr lim a o = (do
      let p ← initOpts o 1
      let c ← wr p.coeff 0 v
      pure { p with coeff := c }) → v * o.fam.c0 = (if |a| < thr then 0 else a) →
      ∃ r, constant thr lim a o = .ok r ∧ FromOpts o 1 r ∧ ∀ x, eval sq r x = .ok (if |a| < thr then 0 else a) := by
    intro v hh hvv
    have wf := hv.wf (num := 1) (na := 1 + 50) (m := m) (c := (List.replicate (1 + 50) 0).set 0 v) (k := o.krist) le_rfl (by omega) (by simp)
    refine ⟨_, ?_, ⟨wf, rfl, rfl, rfl, rfl, rfl, hm⟩, fun x => ?_⟩
    · rw [hh, e, bind_ok, wr_ok _ (by simp), bind_ok]; rfl
    · rw [eval_value sq wf hk]
      simp [Ope.val, Fam.p, List.replicate_succ, hvv]
  by_cases c : |a| < thr
  · refine key 0 ?_ (by rw [if_pos c, zero_mul])
    rw [constant, cassert_of (by simpa using ha), bind_ok]
    simp only [if_pos c, e, bind_ok, pure_eq_ok]
  · refine key (a / o.fam.c0) ?_ (by rw [if_neg c, div_mul_cancel₀ _ hc])
    rw [constant, cassert_of (by simpa using ha), bind_ok]
    simp only [if_neg c, e, bind_ok, dv_ok hc]

/-- C124: the zero function, with the number of parameters of the options if that is asked for. -/
theorem zero_value {o : Opts K} (hv : o.Valid) (hk : o.krist = false) {force : Bool} (hs : force = true → 1 ≤ o.start) (sq : K → K) :
    ∃ r, zero o force = .ok r ∧ FromOpts o (if force then o.start else 1) r ∧ ∀ x, eval sq r x = .ok 0 := by
  obtain ⟨m, hm, -, -, e⟩ := initOpts_all hv
  have hn : 1 ≤ if force = true then o.start else 1 := by split <;> simp_all
  obtain ⟨c, ec, h1, h2⟩ := forN_spec (n := if force = true then o.start else 1) (body := fun ii c => wr c ii (0 : K))
    (I := fun _ c => c.length = (if force = true then o.start else 1) + 50 ∧ ∀ k, c.getD k 0 = 0) (s := List.replicate ((if force = true then o.start else 1) + 50) 0)
    ⟨by simp, fun k => rep_getD _ k⟩
    (fun i hi c hc => ⟨c.set i 0, wr_ok _ (by omega), by simpa using hc.1, fun k => by
      have := hc.2 k
      rw [List.getD_eq_getElem?_getD] at this ⊢
      rw [List.getElem?_set]
      split
      · split <;> rfl
      · exact this⟩)
  have wf := hv.wf (num := if force = true then o.start else 1) (na := (if force = true then o.start else 1) + 50) (m := m) (c := c) (k := o.krist) hn (by omega) (by omega)
  refine ⟨_, ?_, ⟨wf, rfl, rfl, rfl, rfl, rfl, hm⟩, fun x => ?_⟩
  · rw [zero]
    simp only [e, bind_ok, ec]; rfl
  · rw [eval_value sq wf hk, Ope.val]
    refine congrArg _ (sum_eq_zero fun k _ => ?_)
    show c.getD k 0 * _ = 0
    rw [h2, zero_mul]

theorem linearSet_value {p : Ope K} (hp : p.WF) (hn : p.num = 2) (hk : p.krist = false) (hm : p.map.Inv) (hc : p.fam.c0 ≠ 0) (h0 : p.fam.l0 = 0) (h1 : p.fam.l1 ≠ 0) (a offset : K)
    (sq : K → K) :
    ∃ r, linearSet p a offset = .ok r ∧ r.WF ∧ r.fam = p.fam ∧ r.num = 2 ∧ r.lb = p.lb ∧ r.ub = p.ub ∧ r.krist = p.krist ∧ r.map = p.map ∧
      ∀ x, eval sq r x = .ok (a * x + offset) := by
  have hs := hm.slope_ne
  have hl : 2 ≤ p.coeff.length := by have := hp.num_le; have := hp.alloc_le; omega
  have hd : p.fam.l1 * p.map.slope ≠ 0 := mul_ne_zero h1 hs
  set v1 := a / (p.fam.l1 * p.map.slope) with hv1
  set v0 := (offset - p.fam.l0 - v1 * p.fam.l1 * p.map.off) / p.fam.c0 with hv0
  have wf : ({ p with coeff := (p.coeff.set 1 v1).set 0 v0 } : Ope K).WF := ⟨hp.pos, hp.num_le, by simpa using hp.alloc_le, hp.cheb⟩
  refine ⟨{ p with coeff := (p.coeff.set 1 v1).set 0 v0 }, ?_, wf, rfl, hn, rfl, rfl, rfl, rfl, fun x => ?_⟩
  · rw [linearSet, dv_ok hd, bind_ok, wr_ok (a := p.coeff) _ (by omega), bind_ok,
      rd_of_getElem? (v := v1) (by rw [List.getElem?_set_self (by omega)]), bind_ok, dv_ok hc, bind_ok, wr_ok (a := p.coeff.set 1 v1) _ (by simp; omega), bind_ok]
    rfl
  · rw [eval_value sq wf hk, Ope.val]
    show Except.ok (∑ k ∈ range p.num, ((p.coeff.set 1 v1).set 0 v0).getD k 0 * p.fam.p k (p.map.slope * x + p.map.off)) = _
    rw [hn, sum_range_succ, sum_range_one, List.getD_eq_getElem?_getD, List.getElem?_set_self (by simp; omega), List.getD_eq_getElem?_getD,
      List.getElem?_set_ne (by omega), List.getElem?_set_self (by omega)]
    simp only [Option.getD_some, Fam.p, h0, hv0, hv1]
    congr 1
    field_simp
    ring

/-- C124: linear functions. -/
theorem linear_value {o : Opts K} (hv : o.Valid) (hk : o.krist = false) (hc : o.fam.c0 ≠ 0) (h0 : o.fam.l0 = 0) (h1 : o.fam.l1 ≠ 0) (a offset : K) (sq : K → K) :
    ∃ r, linear a offset o = .ok r ∧ FromOpts o 2 r ∧ ∀ x, eval sq r x = .ok (a * x + offset) := by
  obtain ⟨m, hm, -, -, e⟩ := initOpts_all hv
  have wf := hv.wf (num := 2) (na := 2 + 50) (m := m) (c := List.replicate (2 + 50) 0) (k := o.krist) (by omega) (by omega) (by simp)
  obtain ⟨r, er, r1, r2, r3, r4, r5, r6, r7, r8⟩ := linearSet_value wf rfl hk hm hc h0 h1 a offset sq
  exact ⟨r, by rw [linear, e, bind_ok, er], ⟨r1, r2, r3, r4, r5, r6, by rw [r7]; exact hm⟩, r8⟩

/-- C124: the update of a linear function. -/
theorem linearUpdate_value_partial {p : Ope K} (hp : p.WF) (hn : p.num = 2) (hk : p.krist = false) (hm : p.map.Inv) (hc : p.fam.c0 ≠ 0) (h0 : p.fam.l0 = 0) (h1 : p.fam.l1 ≠ 0)
    (a offset : K) (sq : K → K) :
    ∃ r, linearUpdate p a offset = .ok r ∧ r.WF ∧ ∀ x, eval sq r x = .ok (a * x + offset) := by
  obtain ⟨r, er, r1, -, -, -, -, -, -, r8⟩ := linearSet_value hp hn hk hm hc h0 h1 a offset sq
  exact ⟨r, er, r1, r8⟩

/-- C124: quadratic functions. -/
theorem quadratic_value {o : Opts K} (hv : o.Valid) (hk : o.krist = false) {Q : PT → Nat → Rule K} (hQ : ProjectsAt Q o.fam 3) (a offset : K) (sq : K → K) :
    ∃ r, quadratic Q a offset o = .ok r ∧ FromOpts o 3 r ∧ ∀ x, eval sq r x = .ok (a * (x - offset) ^ 2) := by
  obtain ⟨m, hm, -, -, e⟩ := initOpts_all hv
  have wf := hv.wf (num := 3) (na := 3 + 50) (m := m) (c := List.replicate (3 + 50) 0) (k := o.krist) (by omega) (by omega) (by simp)
  obtain ⟨r, er, rw', rv⟩ := hQ _ wf rfl rfl hm (fun k _ => rep_getD _ k)
    (.C a * (.C m.islope * .X + .C (m.ioff - offset)) ^ 2) (by
      refine lt_of_le_of_lt (b := ((2 : Nat) : WithBot Nat)) ?_ (by decide)
      compute_degree
      exact le_rfl) (quadFunc a offset) (fun x => by
      have hx : m.islope * (m.slope * x + m.off) + m.ioff = x := hm.left x
      simp only [quadFunc, Polynomial.eval_mul, Polynomial.eval_C, Polynomial.eval_pow, Polynomial.eval_add, Polynomial.eval_X]
      congr 1
      have : m.islope * (m.slope * x + m.off) + (m.ioff - offset) = x - offset := by linear_combination hx
      rw [this]; ring)
  obtain ⟨f1, f2, f3, f4, f5, f6, f7⟩ := approx_fields er
  refine ⟨r, by rw [quadratic, e, bind_ok, er], ⟨rw', f1, f6, f3, f4, f5, by rw [f2]; exact hm⟩, fun x => ?_⟩
  rw [eval_value sq rw' (f5.trans hk), rv]
  have hx : m.islope * (m.slope * x + m.off) + m.ioff = x := hm.left x
  simp only [Polynomial.eval_mul, Polynomial.eval_C, Polynomial.eval_pow, Polynomial.eval_add, Polynomial.eval_X]
  have : m.islope * (m.slope * x + m.off) + (m.ioff - offset) = x - offset := by linear_combination hx
  rw [this]

/-- A constant function (one polynomial): the update with slope 1 leaves a constant, for all families with `c0 = l1 = 1`, here Chebyshev on [-1,1]. -/
theorem linearUpdate_counterexample : ∃ (p r : Ope ℚ), p.WF ∧ p.map.Inv ∧ p.fam = chebFam 3 ∧ linearUpdate p 1 0 = .ok r ∧ eval (fun x => x) r 1 = .ok 0 ∧
    eval (fun x => x) r 0 = .ok 0 := by
  refine ⟨⟨chebFam 3, 1, -1, 1, ⟨1, 0, 1, 0⟩, 2, [0, 0], false⟩, ⟨chebFam 3, 1, -1, 1, ⟨1, 0, 1, 0⟩, 2, [0, 1], false⟩,
    ⟨by simp, by simp, by simp, fun _ => ⟨3, rfl⟩⟩, ⟨by norm_num, by norm_num⟩, rfl, ?_, by decide +kernel, by decide +kernel⟩
  simp [linearUpdate, linearSet, dv, chebFam, wr, rd, bind, Except.bind, pure, Except.pure]

end field

end C3.Poly

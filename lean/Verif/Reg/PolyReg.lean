/- Regression with polynomial expansions (property C44). -/
import Verif.Reg.Props
import Verif.Poly.DerivExp
import Mathlib.Analysis.Calculus.IteratedDeriv.Defs

set_option linter.unusedSectionVars false

namespace C3.Reg
open Finset Real
open C3.Poly (Ope Opts.fam legFam hermFam Decay OnInt)

/-- The operations for polynomial expansions (functions.c, macros `GF_SWITCH_*` for `POLYNOMIAL`; polynomials.c). The arguments stand for
the parts that are not modelled: inner products and derivatives through approximation, Chebyshev branches of the decaying norms. -/
noncomputable def polyOps (o : C3.Poly.Opts ℝ) (thr : ℝ) (oi : Ope ℝ → Ope ℝ → C ℝ) (od : Ope ℝ → Ope ℝ → C (Ope ℝ)) (pw : ℝ → ℝ → ℝ) (c1 : Ope ℝ → C ℝ)
    (c2 : Ope ℝ → List ℝ → C (List ℝ)) : Ops (Ope ℝ) where
  create := C3.Poly.createWithParams o
  update := C3.Poly.updateParams
  eval := C3.Poly.eval Real.sqrt
  pgrad f x buf := C3.Poly.paramGrad Real.sqrt f 1 [x] buf
  inner := C3.Poly.inner oi
  sqGrad := C3.Poly.sqNormGrad
  deriv := C3.Poly.deriv thr Real.sqrt od
  rkhs := C3.Poly.rkhsNorm pw c1
  rkhsGrad := C3.Poly.rkhsGrad pw c2

/-- The expansion `g` has the shape of `f0` and the parameters `p`. -/
structure HasPar (f0 : Ope ℝ) (n : Nat) (g : Ope ℝ) (p : Nat → ℝ) : Prop where
  wf : g.WF
  fam : g.fam = f0.fam
  map : g.map = f0.map
  lb : g.lb = f0.lb
  ub : g.ub = f0.ub
  krist : g.krist = false
  num : g.num = n
  cf : ∀ k < n, g.cf k = p k

/-- Value of the series with parameters `p`. -/
noncomputable def ser (f0 : Ope ℝ) (n : Nat) (p : Nat → ℝ) (x : ℝ) : ℝ := ∑ k ∈ range n, p k * f0.fam.p k (f0.map.slope * x + f0.map.off)

theorem HasPar.val {f0 : Ope ℝ} {n : Nat} {g : Ope ℝ} {p : Nat → ℝ} (h : HasPar f0 n g p) (x : ℝ) : g.val x = ser f0 n p x := by
  rw [Ope.val, h.num, h.fam, h.map, ser]
  refine sum_congr rfl fun k hk => ?_
  rw [mem_range] at hk
  rw [← h.cf k hk, Ope.cf, if_pos (by rw [h.num]; exact hk)]

/-- C44: polynomial expansions of every family are models linear in their parameters. -/
theorem poly_isModel (o : C3.Poly.Opts ℝ) (thr : ℝ) (oi : Ope ℝ → Ope ℝ → C ℝ) (od : Ope ℝ → Ope ℝ → C (Ope ℝ)) (pw : ℝ → ℝ → ℝ) (c1 : Ope ℝ → C ℝ)
    (c2 : Ope ℝ → List ℝ → C (List ℝ)) (f0 : Ope ℝ) {n : Nat} (hn : 1 ≤ n) :
    IsModel (polyOps o thr oi od pw c1 c2) n (fun _ => True) (HasPar f0 n) (ser f0 n) (fun _ k x => f0.fam.p k (f0.map.slope * x + f0.map.off)) where
  update {g p param} h hl := by
    obtain ⟨r, e, w, rn, rf, rm, rl, ru, rk, rc⟩ := C3.Poly.updateParams_value h.wf hn hl
    exact ⟨r, e, w, by rw [rf, h.fam], by rw [rm, h.map], by rw [rl, h.lb], by rw [ru, h.ub], by rw [rk, h.krist], rn, rc⟩
  eval {g p x} h _ := by
    show C3.Poly.eval Real.sqrt g x = _
    rw [C3.Poly.eval_value _ h.wf h.krist, h.val]
  pgrad {g p x buf} h _ hb := by
    obtain ⟨b, e, l, v, -⟩ := C3.Poly.paramGrad_value Real.sqrt h.wf.pos h.krist (nx := 1) (x := [x]) (grad := buf) (by simp) (by rw [h.num]; omega)
    refine ⟨b, e, l, fun k hk => ?_⟩
    have := v 0 (by omega) k (by rw [h.num]; exact hk)
    rw [Nat.zero_mul, Nat.zero_add] at this
    rw [List.getD_eq_getElem?_getD, this, h.fam, h.map]; rfl
  deriv {p k x} hk _ := by
    have e : ∀ t, ser f0 n (Function.update p k t) x =
        (∑ i ∈ (range n).erase k, p i * f0.fam.p i (f0.map.slope * x + f0.map.off)) + t * f0.fam.p k (f0.map.slope * x + f0.map.off) := fun t => by
      rw [ser, ← sum_erase_add _ _ (mem_range.2 hk), Function.update_self]
      congr 1
      exact sum_congr rfl fun i hi => by rw [Function.update_of_ne (ne_of_mem_erase hi)]
    simp only [e]
    have := ((hasDerivAt_id (p k)).mul_const (f0.fam.p k (f0.map.slope * x + f0.map.off))).const_add
      (∑ i ∈ (range n).erase k, p i * f0.fam.p i (f0.map.slope * x + f0.map.off))
    rw [one_mul] at this
    exact this

theorem getElem?_of_getD {a b : List ℝ} (hl : a.length = b.length) {k : Nat} (h : a.getD k 0 = b.getD k 0) : a[k]? = b[k]? := by
  by_cases hk : k < a.length
  · rw [List.getElem?_eq_getElem hk, List.getElem?_eq_getElem (hl ▸ hk)]
    rw [List.getD_eq_getElem?_getD, List.getD_eq_getElem?_getD, List.getElem?_eq_getElem hk, List.getElem?_eq_getElem (hl ▸ hk)] at h
    simpa using h
  · rw [List.getElem?_eq_none (by omega), List.getElem?_eq_none (by omega)]

theorem HasPar.set {f0 : Ope ℝ} {n : Nat} {g : Ope ℝ} {p : Nat → ℝ} (h : HasPar f0 n g p) {k : Nat} (hk : k < n) (t : ℝ) :
    HasPar f0 n (g.setCf k t) (Function.update p k t) where
  wf := C3.Poly.setCf_wf h.wf k t
  fam := h.fam
  map := h.map
  lb := h.lb
  ub := h.ub
  krist := h.krist
  num := h.num
  cf i hi := by
    have hl := h.wf.num_le.trans h.wf.alloc_le
    have hc := h.cf i hi
    rw [Ope.cf, if_pos (by rw [h.num]; exact hi)] at hc
    rw [Ope.cf, if_pos (show i < (g.setCf k t).num by rw [show (g.setCf k t).num = g.num from rfl, h.num]; exact hi)]
    rw [show (g.setCf k t).coeff = g.coeff.set k t from rfl, C3.Poly.getD_set' (by rw [h.num] at hl; omega)]
    by_cases e : i = k
    · rw [if_pos e, e, Function.update_self]
    · rw [if_neg e, Function.update_of_ne e, hc]

/-- C44: for Legendre expansions the squared norm over the domain is a penalty with the right gradient, for every factor. -/
theorem leg_isPenalty (o : C3.Poly.Opts ℝ) (thr : ℝ) (oi : Ope ℝ → Ope ℝ → C ℝ) (od : Ope ℝ → Ope ℝ → C (Ope ℝ)) (pw : ℝ → ℝ → ℝ) (c1 : Ope ℝ → C ℝ)
    (c2 : Ope ℝ → List ℝ → C (List ℝ)) {f0 : Ope ℝ} (hf : f0.fam = legFam) (hi : OnInt f0) (n : Nat) (s : ℝ) :
    IsPenalty (fun g => (polyOps o thr oi od pw c1 c2).inner g g) (fun g => (polyOps o thr oi od pw c1 c2).sqGrad g s) n (HasPar f0 n)
      (fun p => ∫ x in f0.lb..f0.ub, ser f0 n p x ^ 2) s where
  val {g p} h := by
    have hg : OnInt g := ⟨by rw [h.lb, h.ub]; exact hi.lt, by rw [h.map, h.lb]; exact hi.lo, by rw [h.map, h.ub]; exact hi.hi, by rw [h.map]; exact hi.inv⟩
    show C3.Poly.inner oi g g = _
    rw [C3.Poly.inner_leg oi h.wf h.wf (by rw [h.fam, hf]) (by rw [h.fam, hf]) hg rfl]
    simp only [h.val, h.lb, h.ub, sq]
  grad {g p gr} h hl := by
    have hg : OnInt g := ⟨by rw [h.lb, h.ub]; exact hi.lt, by rw [h.map, h.lb]; exact hi.lo, by rw [h.map, h.ub]; exact hi.hi, by rw [h.map]; exact hi.inv⟩
    obtain ⟨g', e, l, d, r⟩ := C3.Poly.sqNormGrad_leg h.wf (by rw [h.fam, hf]) h.krist hg s (grad := gr) (by rw [h.num]; exact hl)
    refine ⟨g', e, l, fun k hk => ?_, fun k hk => getElem?_of_getD l (r k (by rw [h.num]; exact hk))⟩
    have h1 := d k (by rw [h.num]; exact hk)
    have hc := h.cf k hk
    rw [Ope.cf, if_pos (by rw [h.num]; exact hk)] at hc
    rw [hc] at h1
    have e2 : ∀ t x, (g.setCf k t).val x = ser f0 n (Function.update p k t) x := fun t x => (h.set hk t).val x
    simp only [e2, h.lb, h.ub] at h1
    exact h1

/-- C44: least squares with polynomial expansions: half the sum of the squared residuals of the series, and its gradient. -/
theorem poly_ls (o : C3.Poly.Opts ℝ) (thr : ℝ) (oi : Ope ℝ → Ope ℝ → C ℝ) (od : Ope ℝ → Ope ℝ → C (Ope ℝ)) (pw : ℝ → ℝ → ℝ) (c1 : Ope ℝ → C ℝ)
    (c2 : Ope ℝ → List ℝ → C (List ℝ)) {f0 : Ope ℝ} {n : Nat} (hn : 1 ≤ n) {ro : Opts (Ope ℝ)} (ho : Ready ro n (fun _ => True) (HasPar f0 n))
    {param : List ℝ} (hp : n ≤ param.length) (grad : Option (List ℝ)) (hg : ∀ g, grad = some g → n ≤ g.length) :
    ∃ v gr ro', lsCost (polyOps o thr oi od pw c1 c2) ro n param grad = .ok (v, gr, ro') ∧ CostOk (half (ser f0 n) ro.N ro.xs ro.ys) n param grad v gr := by
  obtain ⟨v, gr, o', e, h, -⟩ := lsCost_spec (poly_isModel o thr oi od pw c1 c2 f0 hn) ho hp grad hg
  exact ⟨v, gr, o', e, h⟩

/-- C44: ridge regression with Legendre expansions: the penalty is λ/2 times the integral of the square. -/
theorem legendre_rls2 (o : C3.Poly.Opts ℝ) (thr : ℝ) (oi : Ope ℝ → Ope ℝ → C ℝ) (od : Ope ℝ → Ope ℝ → C (Ope ℝ)) (pw : ℝ → ℝ → ℝ) (c1 : Ope ℝ → C ℝ)
    (c2 : Ope ℝ → List ℝ → C (List ℝ)) {f0 : Ope ℝ} (hf : f0.fam = legFam) (hi : OnInt f0) {n : Nat} (hn : 1 ≤ n) {ro : Opts (Ope ℝ)}
    (ho : Ready ro n (fun _ => True) (HasPar f0 n)) {param : List ℝ} (hp : n ≤ param.length) (grad : Option (List ℝ)) (hg : ∀ g, grad = some g → n ≤ g.length) :
    ∃ v gr ro', rls2Cost (polyOps o thr oi od pw c1 c2) ro n param grad = .ok (v, gr, ro') ∧
      CostOk (fun p => half (ser f0 n) ro.N ro.xs ro.ys p + 1 / 2 * ro.lam * ∫ x in f0.lb..f0.ub, ser f0 n p x ^ 2) n param grad v gr := by
  obtain ⟨v, gr, o', e, h, -⟩ := rls2Cost_spec (poly_isModel o thr oi od pw c1 c2 f0 hn) (leg_isPenalty o thr oi od pw c1 c2 hf hi n _) ho hp grad hg
  exact ⟨v, gr, o', e, h⟩

/-! ### A concrete case, and the penalties whose gradient is wrong -/

/-- Options for a fit of one Legendre coefficient on `[0, 4]` to one data point. -/
noncomputable def exOpts : Opts (Ope ℝ) :=
  ⟨.parametric, .rls2, true, true, 1, .none, 1, 1, [2], [5], 3, some [1, 2, 3], some C3.Poly.exLeg, [0], some [0, 0, 0], [0]⟩

theorem exLeg_par : HasPar C3.Poly.exLeg 3 C3.Poly.exLeg (fun k => C3.Poly.exLeg.cf k) :=
  ⟨C3.Poly.exLeg_wf, rfl, rfl, rfl, rfl, rfl, rfl, fun _ _ => rfl⟩

theorem exOpts_ready : Ready exOpts 3 (fun _ => True) (HasPar C3.Poly.exLeg 3) :=
  ⟨rfl, by simp [exOpts], by simp [exOpts], by simp [exOpts], by simp [exOpts], ⟨[0, 0, 0], rfl, by simp⟩, ⟨C3.Poly.exLeg, _, rfl, exLeg_par⟩, fun _ _ => trivial⟩

example (o : C3.Poly.Opts ℝ) (thr : ℝ) (oi : Ope ℝ → Ope ℝ → C ℝ) (od : Ope ℝ → Ope ℝ → C (Ope ℝ)) (pw : ℝ → ℝ → ℝ) (c1 : Ope ℝ → C ℝ)
    (c2 : Ope ℝ → List ℝ → C (List ℝ)) :
    ∃ v gr ro', rls2Cost (polyOps o thr oi od pw c1 c2) exOpts 3 [4, 5, 6] (some [9, 9, 9]) = .ok (v, gr, ro') ∧
      CostOk (fun p => half (ser C3.Poly.exLeg 3) 1 [2] [5] p + 1 / 2 * 1 * ∫ x in (0 : ℝ)..4, ser C3.Poly.exLeg 3 p x ^ 2) 3 [4, 5, 6] (some [9, 9, 9]) v gr :=
  legendre_rls2 o thr oi od pw c1 c2 rfl C3.Poly.exLeg_int (by norm_num) exOpts_ready (by simp) _ (fun g h => by cases h; simp)

/-- C44: the penalty with decaying weights for Legendre expansions; value and gradient belong together only when the mapping has slope 1, i.e. the domain
has length 2. -/
theorem legendre_rkhs_partial (o : C3.Poly.Opts ℝ) (thr : ℝ) (oi : Ope ℝ → Ope ℝ → C ℝ) (od : Ope ℝ → Ope ℝ → C (Ope ℝ)) (pw : ℝ → ℝ → ℝ) (c1 : Ope ℝ → C ℝ)
    (c2 : Ope ℝ → List ℝ → C (List ℝ)) {f0 : Ope ℝ} (hf : f0.fam = legFam) (hs : f0.map.slope = 1) {n : Nat} (hn : 1 ≤ n) {ro : Opts (Ope ℝ)}
    (ho : Ready ro n (fun _ => True) (HasPar f0 n)) {param : List ℝ} (hp : n ≤ param.length) (grad : Option (List ℝ)) (hg : ∀ g, grad = some g → n ≤ g.length) :
    ∃ v gr ro', rkhsCost (polyOps o thr oi od pw c1 c2) ro n param grad = .ok (v, gr, ro') ∧
      CostOk (fun p => half (ser f0 n) ro.N ro.xs ro.ys p + 1 / 2 * ro.lam * ∑ k ∈ range n, 2 * (p k * p k * C3.Poly.decayFac pw ro.decay ro.decayPar k))
        n param grad v gr := by
  have hR : IsPenalty (fun g => (polyOps o thr oi od pw c1 c2).rkhs g ro.decay ro.decayPar)
      (fun g => (polyOps o thr oi od pw c1 c2).rkhsGrad g ro.lam ro.decay ro.decayPar) n (HasPar f0 n)
      (fun p => ∑ k ∈ range n, 2 * (p k * p k * C3.Poly.decayFac pw ro.decay ro.decayPar k)) (1 / 2 * ro.lam) := by
    refine ⟨fun {g p} h => ?_, fun {g p gr} h hl => ?_⟩
    · show C3.Poly.rkhsNorm pw c1 g ro.decay ro.decayPar = _
      rw [C3.Poly.rkhsNorm, h.krist, show cassert (!false) = .ok () from rfl, bind_ok, show g.fam.pt = .leg by rw [h.fam, hf]; rfl]
      dsimp only
      rw [h.num]
      refine (forN_sum (n := n) (s0 := (0 : ℝ)) (g := fun k => 2 * (p k * p k * C3.Poly.decayFac pw ro.decay ro.decayPar k)) (fun i hi s => ?_)).trans (by rw [zero_add])
      have hc := h.cf i hi
      rw [Ope.cf, if_pos (by rw [h.num]; exact hi)] at hc
      rw [h.wf.rdc (by rw [h.num]; exact hi), bind_ok, hc, h.fam, hf, h.map, hs, show legFam.norm i = 1 from rfl, pure_eq_ok]
      congr 2; ring
    · have hl' : g.num ≤ gr.length := by rw [h.num]; exact hl
      obtain ⟨g', e, l, h1, h2⟩ := C3.Poly.addLoop' (n := g.num) (grad := gr) (fun ii => 2 * ro.lam * g.coeff.getD ii 0 * C3.Poly.decayFac pw ro.decay ro.decayPar ii) hl'
        (body := fun ii g' => do
          let v ← rd g' ii
          let c ← rd g.coeff ii
          wr g' ii (v + 2 * ro.lam * c * C3.Poly.decayFac pw ro.decay ro.decayPar ii))
        (fun i hi g' hl' => by rw [rd_getD 0 (by omega), bind_ok, h.wf.rdc hi, bind_ok, wr_ok _ (by omega)])
      refine ⟨g', ?_, l, fun k hk => ?_, fun k hk => getElem?_of_getD l (h2 k (by rw [h.num]; exact hk))⟩
      · show C3.Poly.rkhsGrad pw c2 g ro.lam ro.decay ro.decayPar gr = _
        rw [C3.Poly.rkhsGrad, h.krist, show cassert (!false) = .ok () from rfl, bind_ok, show g.fam.pt = .leg by rw [h.fam, hf]; rfl]; exact e
      · have hc := h.cf k hk
        rw [Ope.cf, if_pos (by rw [h.num]; exact hk)] at hc
        have e2 : ∀ t, ∑ i ∈ range n, 2 * (Function.update p k t i * Function.update p k t i * C3.Poly.decayFac pw ro.decay ro.decayPar i) =
            (∑ i ∈ (range n).erase k, 2 * (p i * p i * C3.Poly.decayFac pw ro.decay ro.decayPar i)) + t * t * (2 * C3.Poly.decayFac pw ro.decay ro.decayPar k) := fun t => by
          rw [← sum_erase_add _ _ (mem_range.2 hk), Function.update_self]
          congr 1
          · exact sum_congr rfl fun i hi => by rw [Function.update_of_ne (ne_of_mem_erase hi)]
          · ring
        simp only [e2]
        have := ((((hasDerivAt_id (p k)).mul (hasDerivAt_id (p k))).mul_const (2 * C3.Poly.decayFac pw ro.decay ro.decayPar k)).const_add
          (∑ i ∈ (range n).erase k, 2 * (p i * p i * C3.Poly.decayFac pw ro.decay ro.decayPar i))).const_mul (1 / 2 * ro.lam)
        refine this.congr_deriv ?_
        rw [h1 k (by rw [h.num]; exact hk), hc]
        simp only [id]; ring
  obtain ⟨v, gr, o', e, h, -⟩ := rkhsCost_spec_partial (poly_isModel o thr oi od pw c1 c2 f0 hn) hR ho hp grad hg
  exact ⟨v, gr, o', e, h⟩

/-- Options without data for one Hermite coefficient, λ = 1, all weights 1. -/
noncomputable def exRkhs : Opts (Ope ℝ) :=
  ⟨.parametric, .rlsrkhs, true, true, 1, .alg, 1, 0, [], [], 1, some [1], some ⟨hermFam 9, 1, -9, 9, ⟨1, 0, 1, 0⟩, 1, [1], false⟩, [], some [0], []⟩

/-- C44 fails for the penalty with decaying weights and Hermite expansions: the cost is `t² / 2`, the gradient returned `2 t`. -/
theorem rkhs_hermite_counterexample (o : C3.Poly.Opts ℝ) (thr : ℝ) (oi : Ope ℝ → Ope ℝ → C ℝ) (od : Ope ℝ → Ope ℝ → C (Ope ℝ)) (pw : ℝ → ℝ → ℝ)
    (c1 : Ope ℝ → C ℝ) (c2 : Ope ℝ → List ℝ → C (List ℝ)) (t : ℝ) :
    (rkhsCost (polyOps o thr oi od pw c1 c2) exRkhs 1 [t] (some [0])).map (fun r => (r.1, r.2.1)) = .ok (1 / 2 * t ^ 2, some [2 * t]) := by
  simp [rkhsCost, lsCost, exRkhs, polyOps, deref, C3.Poly.updateParams, C3.Poly.putParams, forN, forR, rd, wr, evalLoop, residLoop, gradLoop, addGrad,
    C3.Poly.rkhsNorm, C3.Poly.rkhsGrad, cassert, hermFam, C3.Poly.decayFac, bind, Except.bind, pure, Except.pure, Except.map]
  ring

/-- Options without data for three Legendre coefficients on `[-1, 1]`, λ = 1. -/
noncomputable def exD2 (c : List ℝ) : Opts (Ope ℝ) :=
  ⟨.parametric, .rlsd2, true, true, 1, .none, 1, 0, [], [], 3, some c, some ⟨legFam, 3, -1, 1, ⟨1, 0, 1, 0⟩, 3, c, false⟩, [], some [0, 0, 0], []⟩

theorem leg_two (x : ℝ) : legFam.p 2 x = √5 * ((3 * x ^ 2 - 1) / 2) := by
  rw [C3.Poly.leg_p, C3.Poly.Lg, C3.Poly.Lg, C3.Poly.Lg]
  norm_num
  ring

/-- C44: the value of the cost with a penalty on the second derivative, for Legendre expansions when rounding drops nothing: λ/2 times the integral of the
square of the second derivative. The gradient is not covered (see `rlsd2_counterexample`). -/
theorem legendre_rlsd2_value_partial (o : C3.Poly.Opts ℝ) (oi : Ope ℝ → Ope ℝ → C ℝ) (od : Ope ℝ → Ope ℝ → C (Ope ℝ)) (pw : ℝ → ℝ → ℝ) (c1 : Ope ℝ → C ℝ)
    (c2 : Ope ℝ → List ℝ → C (List ℝ)) {f0 : Ope ℝ} (hf : f0.fam = legFam) (hi : OnInt f0) {n : Nat} (hn : 1 ≤ n) {ro : Opts (Ope ℝ)}
    (ho : Ready ro n (fun _ => True) (HasPar f0 n)) {param : List ℝ} (hp : n ≤ param.length) :
    ∃ ro', rlsd2Cost (polyOps o 0 oi od pw c1 c2) ro n param none = .ok (half (ser f0 n) ro.N ro.xs ro.ys (fun k => param.getD k 0) +
      1 / 2 * ro.lam * ∫ x in f0.lb..f0.ub, iteratedDeriv 2 (ser f0 n (fun k => param.getD k 0)) x ^ 2, none, ro') := by
  obtain ⟨o', e, -⟩ := rlsd2Cost_value_partial (poly_isModel o 0 oi od pw c1 c2 f0 hn)
    (R := fun p => ∫ x in f0.lb..f0.ub, iteratedDeriv 2 (ser f0 n p) x ^ 2) (fun {g p} h => by
      obtain ⟨r1, e1, d1, w1, f1, m1, l1, u1, k1, -⟩ := C3.Poly.deriv_leg_exact od h.wf (h.fam.trans hf) h.krist
      obtain ⟨r2, e2, d2, w2, f2, m2, l2, u2, k2, -⟩ := C3.Poly.deriv_leg_exact od w1 f1 k1
      refine ⟨r1, r2, e1, e2, ?_⟩
      show C3.Poly.inner oi r2 r2 = _
      have hv : ser f0 n p = g.val := funext fun x => (h.val x).symm
      have h1 : deriv g.val = r1.val := funext fun x => (d1 x).deriv
      have h2 : deriv r1.val = r2.val := funext fun x => (d2 x).deriv
      have elb : r2.lb = f0.lb := by rw [l2, l1, h.lb]
      have eub : r2.ub = f0.ub := by rw [u2, u1, h.ub]
      have em : r2.map = f0.map := by rw [m2, m1, h.map]
      rw [C3.Poly.inner_leg oi w2 w2 f2 f2 ⟨by rw [elb, eub]; exact hi.lt, by rw [em, elb]; exact hi.lo, by rw [em, eub]; exact hi.hi, by rw [em]; exact hi.inv⟩ rfl,
        iteratedDeriv_succ, iteratedDeriv_one, hv, h1, h2, elb, eub]
      simp only [sq]) ho hp
  exact ⟨o', e⟩

theorem exD2_ready {c : List ℝ} (hc : c.length = 3) :
    Ready (exD2 c) 3 (fun _ => True) (HasPar ⟨legFam, 3, -1, 1, ⟨1, 0, 1, 0⟩, 3, [0, 0, 1], false⟩ 3) :=
  ⟨rfl, le_rfl, le_rfl, le_rfl, le_rfl, ⟨[0, 0, 0], rfl, le_rfl⟩, ⟨_, fun k => c.getD k 0, rfl, ⟨⟨by norm_num, le_rfl, by simp [hc], fun h => by cases h⟩, rfl, rfl, rfl, rfl, rfl, rfl,
    fun k hk => by rw [Ope.cf, if_pos hk]⟩⟩, fun i hi => absurd hi (Nat.not_lt_zero _)⟩

/-- C44 fails for the penalty on the second derivative: for `a + p₂` the cost does not depend on `a`, but the gradient with respect to `a` is returned as `6 √5`
(the gradient is taken with respect to the coefficients of the second derivative). -/
theorem rlsd2_counterexample (o : C3.Poly.Opts ℝ) (oi : Ope ℝ → Ope ℝ → C ℝ) (od : Ope ℝ → Ope ℝ → C (Ope ℝ)) (pw : ℝ → ℝ → ℝ)
    (c1 : Ope ℝ → C ℝ) (c2 : Ope ℝ → List ℝ → C (List ℝ)) :
    ∀ a : ℝ, ∃ g o', rlsd2Cost (polyOps o 0 oi od pw c1 c2) (exD2 [0, 0, 1]) 3 [a, 0, 1] (some [0, 0, 0]) = .ok (45, some g, o') ∧ g.getD 0 0 = 6 * √5 := by
  intro a
  obtain ⟨v, gr, o', e, h, -, -, -, -, g', eg, hg'⟩ := lsCost_spec (poly_isModel o 0 oi od pw c1 c2 ⟨legFam, 3, -1, 1, ⟨1, 0, 1, 0⟩, 3, [0, 0, 1], false⟩ (by norm_num : 1 ≤ 3))
    (exD2_ready (c := [0, 0, 1]) rfl) (param := [a, 0, 1]) le_rfl (some [0, 0, 0]) (fun g h => by cases h; exact le_rfl)
  obtain ⟨gl, egl, ll, hd, -⟩ := h.grad _ rfl
  have hz : gl.getD 0 0 = 0 := by
    have := hd 0 (by norm_num)
    have h0 : ∀ p, half (ser ⟨legFam, 3, -1, 1, ⟨1, 0, 1, 0⟩, 3, [0, 0, 1], false⟩ 3) 0 [] [] p = 0 := fun p => by simp [half]
    have e0 : (exD2 [0, 0, 1]).N = 0 := rfl
    rw [show (exD2 [0, 0, 1]).xs = [] from rfl, show (exD2 [0, 0, 1]).ys = [] from rfl] at this
    simp only [e0, h0] at this
    exact this.unique (hasDerivAt_const _ _)
  have hv : v = 0 := by rw [h.value]; simp [half, exD2]
  obtain ⟨r1, e1, d1, w1, f1, m1, l1, u1, k1, n1⟩ := C3.Poly.deriv_leg_exact od hg'.wf hg'.fam hg'.krist
  obtain ⟨r2, e2, d2, w2, f2, m2, l2, u2, k2, n2⟩ := C3.Poly.deriv_leg_exact od w1 f1 k1
  have vg : g'.val = fun x => a + √5 * ((3 * x ^ 2 - 1) / 2) := funext fun x => by
    rw [hg'.val]
    simp only [ser, sum_range_succ, sum_range_zero, List.getD_cons_zero, List.getD_cons_succ, one_mul, add_zero, zero_add, zero_mul, leg_two]
    simp [C3.Poly.Fam.p, legFam]
  have v1 : r1.val = fun x => 3 * √5 * x := funext fun x => by
    have h1 := d1 x
    rw [vg] at h1
    have h2 : HasDerivAt (fun x : ℝ => a + √5 * ((3 * x ^ 2 - 1) / 2)) (√5 * ((3 * (2 * x ^ 1) - 0) / 2)) x :=
      ((((((hasDerivAt_id x).pow 2).const_mul 3).sub (hasDerivAt_const x (1 : ℝ))).div_const 2).const_mul √5).const_add a |>.congr_deriv (by simp)
    rw [h1.unique h2]; ring
  have v2 : r2.val = fun _ => 3 * √5 := funext fun x => by
    have h1 := d2 x
    rw [v1] at h1
    exact h1.unique (((hasDerivAt_id x).const_mul (3 * √5)).congr_deriv (by simp))
  have elb : r2.lb = -1 := by rw [l2, l1, hg'.lb]
  have eub : r2.ub = 1 := by rw [u2, u1, hg'.ub]
  have em : r2.map = ⟨1, 0, 1, 0⟩ := by rw [m2, m1, hg'.map]
  have oi2 : OnInt r2 := ⟨by rw [elb, eub]; norm_num, by rw [em, elb]; norm_num, by rw [em, eub]; norm_num, by rw [em]; norm_num⟩
  have h5 : √5 * √5 = (5 : ℝ) := Real.mul_self_sqrt (by norm_num)
  have ei : C3.Poly.inner oi r2 r2 = .ok 90 := by
    rw [C3.Poly.inner_leg oi w2 w2 f2 f2 oi2 rfl, v2, elb, eub, intervalIntegral.integral_const]
    congr 1
    rw [smul_eq_mul]; linear_combination 18 * h5
  have hc0 : r2.coeff.getD 0 0 = 3 * √5 := by
    have h1 := C3.Poly.integrate_leg w2 f2 oi2
    rw [C3.Poly.integrate, show r2.fam.pt = .leg by rw [f2]; rfl] at h1
    dsimp only at h1
    rw [C3.Poly.legIntegrate, w2.rdc w2.pos, bind_ok, pure_eq_ok, v2, em, elb, eub, intervalIntegral.integral_const] at h1
    have h2 := Except.ok.inj h1
    rw [smul_eq_mul] at h2
    linarith
  have hn2 : r2.num ≤ gl.length := by
    have := hg'.num
    simp only [List.length_cons, List.length_nil] at ll
    omega
  obtain ⟨g2, eg2, -, h1, -⟩ := C3.Poly.addLoop' (n := r2.num) (grad := gl) (fun ii => 2 * (1 / 2 * 1) * r2.coeff.getD ii 0 * r2.fam.norm ii * (r2.ub - r2.lb)) hn2
    (body := fun ii g => do
      let v ← rd g ii
      let c ← rd r2.coeff ii
      wr g ii (v + 2 * (1 / 2 * 1) * c * r2.fam.norm ii * (r2.ub - r2.lb)))
    (fun i hi g hl => by rw [rd_getD 0 (by omega), bind_ok, w2.rdc hi, bind_ok, wr_ok _ (by omega)])
  have es : C3.Poly.sqNormGrad r2 (1 / 2 * 1) gl = .ok g2 := by
    rw [C3.Poly.sqNormGrad, k2, show cassert (!false) = .ok () from rfl, bind_ok, show r2.fam.pt = .leg by rw [f2]; rfl]; exact eg2
  refine ⟨g2, o', ?_, ?_⟩
  · rw [rlsd2Cost, e, bind_ok]
    dsimp only
    rw [eg, show deref (some g') = .ok g' from rfl, bind_ok]
    rw [show (polyOps o 0 oi od pw c1 c2).deriv g' = .ok r1 from e1, bind_ok, show (polyOps o 0 oi od pw c1 c2).deriv r1 = .ok r2 from e2, bind_ok,
      show (polyOps o 0 oi od pw c1 c2).inner r2 r2 = .ok 90 from ei, bind_ok, egl, addGrad]
    rw [show (polyOps o 0 oi od pw c1 c2).sqGrad r2 (1 / 2 * (exD2 [0, 0, 1]).lam) gl = .ok g2 from es, bind_ok, pure_eq_ok, bind_ok, hv, pure_eq_ok,
      show (exD2 [0, 0, 1]).lam = 1 from rfl]
    norm_num
  · have := h1 0 w2.pos
    rw [hz, hc0, elb, eub, show r2.fam.norm 0 = 1 by rw [f2]; rfl] at this
    linarith

example (o : C3.Poly.Opts ℝ) (oi : Ope ℝ → Ope ℝ → C ℝ) (od : Ope ℝ → Ope ℝ → C (Ope ℝ)) (pw : ℝ → ℝ → ℝ) (c1 : Ope ℝ → C ℝ)
    (c2 : Ope ℝ → List ℝ → C (List ℝ)) := legendre_rlsd2_value_partial o oi od pw c1 c2 rfl
  (f0 := ⟨legFam, 3, -1, 1, ⟨1, 0, 1, 0⟩, 3, [0, 0, 1], false⟩) ⟨by norm_num, by norm_num, by norm_num, by norm_num⟩ (by norm_num) (exD2_ready (c := [1, 2, 3]) rfl)
  (param := [4, 5, 6]) le_rfl

example (o : C3.Poly.Opts ℝ) (thr : ℝ) (oi : Ope ℝ → Ope ℝ → C ℝ) (od : Ope ℝ → Ope ℝ → C (Ope ℝ)) (pw : ℝ → ℝ → ℝ) (c1 : Ope ℝ → C ℝ)
    (c2 : Ope ℝ → List ℝ → C (List ℝ)) := legendre_rkhs_partial o thr oi od pw c1 c2 rfl
  (f0 := ⟨legFam, 3, -1, 1, ⟨1, 0, 1, 0⟩, 3, [0, 0, 1], false⟩) rfl (by norm_num) (exD2_ready (c := [1, 2, 3]) rfl)
  (param := [4, 5, 6]) le_rfl (some [0, 0, 0]) (fun g h => by cases h; exact le_rfl)

end C3.Reg

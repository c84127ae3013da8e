/- C21: the gradient evaluation returns the partial derivatives of the represented function. -/
import Verif.Ft.GradLemmas
import Verif.Ft.AlgProps
import Mathlib.Analysis.Calculus.Deriv.Mul
import Mathlib.Analysis.Calculus.Deriv.Add
import Mathlib.Analysis.Calculus.Deriv.Pow

set_option linter.unusedSectionVars false

namespace C3.Ft
open Finset
variable {K U X : Type} [Field K]

/-- Specification: the chain of core matrices at `x` with the functions of core `i` evaluated by `d` (the derivative). -/
def dvalue (e : Ev K U X) (d : U → X → K) (cores : List (Qma U)) (x : List X) (i : Nat) : K :=
  match cores[i]?, x[i]? with
  | some Q, some xi => chain ((mats e cores x).set i (Q.ncols, Q.val ⟨d, e.poly⟩ xi)) 0
  | _, _ => 0

theorem vd_eq {e : Ev K U X} {d : U → X → K} {Q : Qma U} {x : X} : Q.val ⟨d, e.poly⟩ x = Q.vd d x := by
  funext i j; rfl

section
variable {e : Ev K U X} {d : U → X → K} {ft : FT K U} {x : List X}

theorem dvalue_eq (h : ft.WF) (hx : ft.dim ≤ x.length) {i : Nat} (hi : i < ft.dim) :
    dvalue e d ft.cores x i = ∑ c ∈ range (ft.rk (i + 1)), gradL e d ft x (i + 1) c * sufR e ft x (i + 1) c := by
  obtain ⟨Q, -, hQ, -, -, hc, -⟩ := h.get hi
  have hxi : x[i]? = some x[i] := List.getElem?_eq_getElem (by omega)
  simp only [dvalue, hQ, hxi]
  rw [chain_replace h hx hi, hc, vd_eq]
  simp only [gradL_succ hQ hxi, sum_mul, mul_sum]
  rw [sum_comm]
  exact sum_congr rfl fun c _ => sum_congr rfl fun r _ => by ring

theorem subU_ok {a b : Nat} (h : b ≤ a) : subU a b = .ok (a - b) := by rw [subU, if_pos h]

/-- What the backward sweep has done when pass `zz` is next. -/
structure BInv (e : Ev K U X) (d : U → X → K) (ft : FT K U) (x : List X) (mr L NL zz : Nat) (b : GBk K) : Prop where
  im : b.indmem = goff ft (ft.dim + 1 - zz)
  ie : b.indEval = guo ft (ft.dim - zz)
  ir : b.indRl + mr ≤ mr * zz
  lrl : b.rl.length = NL
  rl : ∀ r < ft.rk (ft.dim - zz), b.rl.getD (b.indRl + r) 0 = sufR e ft x (ft.dim - zz) r
  lout : b.out.length = L
  out : ∀ i, ft.dim - zz ≤ i → i < ft.dim → b.out.getD i 0 = dvalue e d ft.cores x i

theorem gradBack_ok {mr L NE zz : Nat} {s : GSt K} {b : GBk K} (h : ft.WF) (hx : ft.dim ≤ x.length) (hL : ft.dim ≤ L)
    (hmr : ∀ k ≤ ft.dim, ft.rk k ≤ mr) (hs : GInv e d ft x (mr * ft.dim + mr) NE ft.dim s) (hNE : guo ft ft.dim ≤ NE)
    (h1 : 1 ≤ zz) (hz : zz < ft.dim - 1) (hb : BInv e d ft x mr L (mr * ft.dim + mr) zz b) :
    ∃ b', gradBack ft s.gr s.ev zz b = .ok b' ∧ BInv e d ft x mr L (mr * ft.dim + mr) (zz + 1) b' := by
  obtain ⟨B, hB⟩ : ∃ B, ft.dim = B + 1 + zz := ⟨ft.dim - 1 - zz, by omega⟩
  have hB1 : 1 ≤ B := by omega
  have e1 : ft.dim - 1 - zz = B := by omega
  have e2 : ft.dim - zz = B + 1 := by omega
  have e3 : ft.dim + 1 - zz = B + 2 := by omega
  have e4 : ft.dim - (zz + 1) = B := by omega
  have e5 : ft.dim + 1 - (zz + 1) = B + 1 := by omega
  obtain ⟨im, ie, ir, lrl, rl, lout, out⟩ := hb
  rw [e3, goff_succ (by omega)] at im
  rw [e2] at ie rl out
  obtain ⟨Q, -, hQ, -, -, hc, hr1, hr2⟩ := h.get (k := B) (by omega)
  have hxB : x[B]? = some x[B] := List.getElem?_eq_getElem (by omega)
  have m1 := hmr B (by omega)
  have m2 := hmr (B + 1) (by omega)
  have hmz : mr * zz + mr ≤ mr * ft.dim := by
    rw [← Nat.mul_succ]; exact Nat.mul_le_mul_left mr (by omega)
  have o1 := goff_le hmr (k := B + 1) (by omega) (by omega)
  have o2 : mr * (B + 1) ≤ mr * ft.dim := Nat.mul_le_mul_left mr (by omega)
  have u1 := guo_mono (ft := ft) hB1 (show B < ft.dim by omega)
  have ug : guo ft (B + 1) = guo ft B + ft.rk (B + 1) * ft.rk B := guo_succ hB1
  have hcm : ft.rk B * ft.rk (B + 1) = ft.rk (B + 1) * ft.rk B := Nat.mul_comm _ _
  have hv : ddot (ft.rk (B + 1)) (s.gr.drop (goff ft (B + 1))) 1 (b.rl.drop b.indRl) 1
      = .ok (dvalue e d ft.cores x B) := by
    rw [ddot_ok (fun i hi => by rw [List.length_drop, hs.len.gr]; omega) (fun i hi => by rw [List.length_drop, lrl]; omega),
      dvalue_eq h hx (by omega)]
    congr 1
    refine sum_congr rfl fun c hcc => ?_
    rw [mem_range] at hcc
    rw [Nat.mul_one, getD_drop, getD_drop, (hs.left (B + 1) (by omega) (by omega) c hcc).2, rl c hcc]
  have hy := dgemvN_ok (m := ft.rk B) (n := ft.rk (B + 1)) (A := s.ev.drop (guo ft B)) (x := b.rl.drop b.indRl)
    (y := b.rl.drop (b.indRl + ft.rk (B + 1))) (by rw [List.length_drop, hs.len.ev]; omega)
    (by rw [List.length_drop, lrl]; omega) (by rw [List.length_drop, lrl]; omega)
  have hlb : B < b.out.length := by omega
  refine ⟨_, by rw [gradBack, subU_ok (by omega), bind_ok, e1, hr1, bind_ok, hr2, bind_ok, im, subU_ok (by omega), bind_ok,
    Nat.add_sub_cancel, hv, bind_ok, wr_ok _ hlb, bind_ok, ie, subU_ok (by omega), bind_ok, ug, hcm, Nat.add_sub_cancel, hy, bind_ok, pure_eq_ok], ?_⟩
  constructor
  · rw [e5]
  · rw [e4]
  · show b.indRl + ft.rk (B + 1) + mr ≤ mr * (zz + 1)
    rw [Nat.mul_succ]; omega
  · simp [lrl]; omega
  · rw [e4]
    intro r hr
    show (List.take (b.indRl + ft.rk (B + 1)) b.rl ++ _).getD (b.indRl + ft.rk (B + 1) + r) 0 = _
    rw [List.getD_eq_getElem?_getD, List.getElem?_append_right (by simp), List.length_take, Nat.min_eq_left (by omega),
      Nat.add_sub_cancel_left, ← List.getD_eq_getElem?_getD, getD_map_range _ _ _ hr, sufR_step hQ hxB, hc]
    refine sum_congr rfl fun c hcc => ?_
    rw [mem_range] at hcc
    rw [getD_drop, getD_drop, rl c hcc, hs.ent B hB1 (by omega) Q _ hQ hxB c hcc r hr]
  · simp [lout]
  · rw [e4]
    intro i hi hi2
    by_cases hiB : i = B
    · subst hiB
      exact getD_set_self _ _ hlb
    · exact (getD_set_ne _ _ (Ne.symm hiB)).trans (out i (by omega) hi2)

/-- C21. On a train of dimension at least two, the gradient routine returns without error and entry `i` is the value of the
train with the functions of core `i` replaced by their derivatives. -/
theorem gradEval_value_partial (h : ft.WF) (hx : ft.dim ≤ x.length) (h2 : 2 ≤ ft.dim) {out : List K} (ho : ft.dim ≤ out.length) :
    ∃ g, gradEval e d ft x out = .ok g ∧ g.length = out.length ∧
      ∀ i < ft.dim, g[i]? = some (dvalue e d ft.cores x i) := by
  obtain ⟨mr, hm1, hm2, hmr⟩ := rk_le_maxrank h
  obtain ⟨Q, hQ1, hQ, -, -, -, -, hr1⟩ := h.get (k := 0) (by omega)
  have hx0 : x[0]? = some x[0] := List.getElem?_eq_getElem (by omega)
  have hmr1 := hmr 1 (by omega)
  have hmd : mr + mr ≤ mr * ft.dim := by
    have : mr * 2 ≤ mr * ft.dim := Nat.mul_le_mul_left mr h2
    omega
  obtain ⟨s1, f1, f2⟩ := gradFirst_ok (e := e) (d := d) (NL := mr * ft.dim + mr) (NE := mr * mr * ft.dim)
    (s := ⟨List.replicate (mr * ft.dim + mr) 0, List.replicate (mr * ft.dim + mr) 0,
      List.replicate (mr * mr * ft.dim) 0, List.replicate (mr * mr * ft.dim) 0, 0, 0⟩) h hx hQ hx0
    ⟨by simp, by simp, by simp, by simp⟩ rfl rfl (by omega)
  obtain ⟨s, g1, g2⟩ := forR_spec (I := GInv e d ft x (mr * ft.dim + mr) (mr * mr * ft.dim)) (body := gradCore e d ft x) (a := 1) (b := ft.dim) (by omega) f2 (by
    intro k hk1 hk2 s hs
    have := goff_le hmr (k := k + 1) (by omega) (by omega)
    have := hmr (k + 1) (by omega)
    have : mr * (k + 1) ≤ mr * ft.dim := Nat.mul_le_mul_left mr (by omega)
    have := guo_le hm2 hmr (k := k + 1) (by omega) (by omega)
    have : mr * mr * (k + 1) ≤ mr * mr * ft.dim := Nat.mul_le_mul_left _ (by omega)
    exact gradCore_ok h hx hk1 hk2 hs (by omega) (by omega))
  obtain ⟨D, hD⟩ : ∃ D, ft.dim = D + 1 := ⟨ft.dim - 1, by omega⟩
  have hD1 : 1 ≤ D := by omega
  obtain ⟨QD, -, hQD, -, -, -, hrD, -⟩ := h.get (k := D) (by omega)
  have hxD : x[D]? = some x[D] := List.getElem?_eq_getElem (by omega)
  have hmrD := hmr D (by omega)
  have hgd : goff ft ft.dim + mr ≤ mr * ft.dim := goff_le hmr (by omega) (Nat.le_refl _)
  have hrl := h.rk_last
  have hg : s.gr.getD s.indmem 0 = dvalue e d ft.cores x D := by
    rw [dvalue_eq h hx (by omega), ← hD, hrl, sum_range_one, sufR_end h hx, if_pos rfl, mul_one,
      ← (g2.left ft.dim (by omega) (Nat.le_refl _) 0 (by omega)).2, g2.im, Nat.add_zero]
  have hguo : guo ft ft.dim = guo ft D + ft.rk D := by
    rw [hD, guo_succ hD1, ← hD, hrl, Nat.one_mul]
  have hne : guo ft ft.dim ≤ mr * mr * ft.dim := guo_le hm2 hmr (by omega) (Nat.le_refl _)
  have hrlv : forN (ft.rk D) (fun i rl => do
      let v ← rd s.ev (guo ft D + i)
      wr rl i v) (List.replicate (mr * ft.dim + mr) 0)
      = .ok ((List.range (ft.rk D)).map (fun i => s.ev.getD (guo ft D + i) 0) ++ (List.replicate (mr * ft.dim + mr) 0).drop (ft.rk D)) := by
    rw [forN_fill (off := 0) (fun i => s.ev.getD (guo ft D + i) 0) (by simp; omega)]
    · simp
    · intro j hj b hb
      rw [rd_getD 0 (by rw [g2.len.ev]; omega), bind_ok, Nat.zero_add]
  have hlo : D < out.length := by omega
  have e1 : ft.dim - 1 = D := by omega
  obtain ⟨b, b1, b2⟩ := forR_spec (body := gradBack ft s.gr s.ev) (a := 1) (b := ft.dim - 1)
    (I := BInv e d ft x mr out.length (mr * ft.dim + mr)) (s := ⟨out.set D (dvalue e d ft.cores x D),
      (List.range (ft.rk D)).map (fun i => s.ev.getD (guo ft D + i) 0) ++ (List.replicate (mr * ft.dim + mr) 0).drop (ft.rk D),
      guo ft D, 0, s.indmem⟩) (by omega) (by
    constructor
    · exact g2.im
    · rw [e1]
    · simp
    · simp; omega
    · rw [e1]
      intro r hr
      show List.getD _ (0 + r) 0 = _
      rw [Nat.zero_add, getD_map_range _ _ _ hr, sufR_last h hx hD.symm hQD hxD]
      have := g2.ent D hD1 (by omega) QD _ hQD hxD 0 (by rw [← hD, hrl]; omega) r hr
      rwa [Nat.zero_mul, Nat.zero_add] at this
    · simp
    · rw [e1]
      intro i hi1 hi2
      obtain rfl : i = D := by omega
      exact getD_set_self _ _ hlo) (fun k hk1 hk2 b hb => gradBack_ok h hx ho hmr g2 hne hk1 hk2 hb)
  have e6 : ft.dim - (ft.dim - 1) = 1 := by omega
  obtain ⟨-, -, ir, lrl, rl, lout, bout⟩ := b2
  rw [e6] at rl bout
  have hir : b.indRl + mr ≤ mr * ft.dim := Nat.le_trans ir (Nat.mul_le_mul_left mr (by omega))
  have hv : ddot (ft.rk 1) s.gr 1 (b.rl.drop b.indRl) 1 = .ok (dvalue e d ft.cores x 0) := by
    rw [ddot_ok (fun i hi => by rw [g2.len.gr]; omega) (fun i hi => by rw [List.length_drop, lrl]; omega), dvalue_eq h hx (by omega)]
    congr 1
    refine sum_congr rfl fun c hcc => ?_
    rw [mem_range] at hcc
    have := (g2.left 1 (Nat.le_refl _) (by omega) c hcc).2
    rw [goff_one, Nat.zero_add] at this
    rw [Nat.mul_one, getD_drop, this, rl c hcc]
  rw [e1] at b1
  refine ⟨b.out.set 0 (dvalue e d ft.cores x 0), ?_, by simp [lout], ?_⟩
  · rw [gradEval, hm1, bind_ok, hr1, bind_ok, hQ1, bind_ok, rd_of_getElem? hx0, bind_ok, f1, bind_ok, g1, bind_ok,
      rd_getD 0 (by rw [g2.len.gr, g2.im]; omega), bind_ok, hg, e1, wr_ok _ hlo, bind_ok, hrD, bind_ok, g2.on, hguo,
      subU_ok (by omega), bind_ok, Nat.add_sub_cancel, hrlv, bind_ok, b1, bind_ok, hv, bind_ok, wr_ok _ (by omega)]
  · intro i hi
    have hil : i < (b.out.set 0 (dvalue e d ft.cores x 0)).length := by simp; omega
    rw [List.getElem?_eq_getElem hil]
    have : (b.out.set 0 (dvalue e d ft.cores x 0)).getD i 0 = dvalue e d ft.cores x i := by
      by_cases hi0 : i = 0
      · subst hi0; exact getD_set_self _ _ (by omega)
      · rw [getD_set_ne _ _ (Ne.symm hi0)]; exact bout i (by omega) hi
    rwa [List.getD_eq_getElem?_getD, List.getElem?_eq_getElem hil, Option.getD_some, ← Option.some_inj] at this

end

/-- C21, analytic form. If every univariate function has the derivative that the derivative evaluator returns at the
coordinate, entry `i` of the result is the partial derivative of the represented function. -/
theorem gradEval_hasDerivAt_partial {U : Type} {e : Ev ℝ U ℝ} {d : U → ℝ → ℝ} {ft : FT ℝ U} {x : List ℝ} (h : ft.WF)
    (hx : ft.dim ≤ x.length) (h2 : 2 ≤ ft.dim) {out : List ℝ} (ho : ft.dim ≤ out.length)
    (hd : ∀ (i : Nat) (Q : Qma U) (xi : ℝ), ft.cores[i]? = some Q → x[i]? = some xi → ∀ f ∈ Q.funcs, HasDerivAt (e.ev f) (d f xi) xi) :
    ∃ g, gradEval e d ft x out = .ok g ∧ ∀ i (hi : i < ft.dim), ∃ gi, g[i]? = some gi ∧
      HasDerivAt (fun t => value e ft.cores (x.set i t)) gi (x[i]'(by omega)) := by
  obtain ⟨g, h1, -, hg⟩ := gradEval_value_partial (e := e) (d := d) h hx h2 ho
  refine ⟨g, h1, fun i hi => ⟨_, hg i hi, ?_⟩⟩
  obtain ⟨Q, -, hQ, -, -, hc, -⟩ := h.get hi
  have hxi : x[i]? = some x[i] := List.getElem?_eq_getElem (by omega)
  have hdv : dvalue e d ft.cores x i = ∑ r ∈ range (ft.rk i), preL e ft x i r *
      ∑ c ∈ range (ft.rk (i + 1)), Q.vd d x[i] r c * sufR e ft x (i + 1) c := by
    simp only [dvalue, hQ, hxi]
    rw [chain_replace h hx hi, hc, vd_eq]
  have hfun : (fun t => value e ft.cores (x.set i t)) = fun t => ∑ r ∈ range (ft.rk i), preL e ft x i r *
      ∑ c ∈ range (ft.rk (i + 1)), Q.val e t r c * sufR e ft x (i + 1) c := by
    funext t; exact value_set h hx hi hQ t
  rw [hdv, hfun]
  refine HasDerivAt.fun_sum fun r _ => HasDerivAt.const_mul _ (HasDerivAt.fun_sum fun c _ => HasDerivAt.mul_const ?_ _)
  show HasDerivAt (fun t => Q.val e t r c) _ _
  rw [Qma.vd]
  unfold Qma.val
  rcases hf : Q.funcs[c * Q.nrows + r]? with _ | f
  · exact hasDerivAt_const _ _
  · exact hd i Q _ hQ hxi f (List.mem_of_getElem? hf)

/-- The dimension hypothesis is needed: on a one-dimensional train the routine always returns 0. -/
theorem gradEval_dim1_counterexample {e : Ev K U X} {d : U → X → K} (f : U) (x : X) (y : K) :
    gradEval e d ⟨1, [1, 1], [⟨1, 1, [f]⟩], none, none, none⟩ [x] [y] = .ok [0] := by
  simp [gradEval, maxrank, forN, forR, rd, wr, gradFirst, subU, ddot, bind, Except.bind, pure, Except.pure]

/-! ### Non-vacuity: `x² + x y` from monomials -/

def moEv : Ev ℝ Nat ℝ := ⟨fun n x => x ^ n, fun _ => false⟩
def moD (n : Nat) (x : ℝ) : ℝ := n * x ^ (n - 1)
def moFt : FT ℝ Nat := ⟨2, [1, 2, 1], [⟨1, 2, [2, 1]⟩, ⟨2, 1, [0, 1]⟩], none, none, none⟩

theorem moFt_wf : moFt.WF :=
  ⟨rfl, List.cons_ne_nil _ _, rfl, Fits.cons (⟨1, 2, [2, 1]⟩ : Qma Nat) _ rfl (Fits.cons (⟨2, 1, [0, 1]⟩ : Qma Nat) _ rfl (.nil _))⟩

theorem moFt_value (a b : ℝ) : value moEv moFt.cores [a, b] = a ^ 2 + a * b := by
  simp [value, mats, chain, moFt, moEv, Qma.val, Finset.sum_range_succ]

example : ∃ g, gradEval moEv moD moFt [3, 4] [0, 0] = .ok g ∧ ∀ i (hi : i < 2), ∃ gi, g[i]? = some gi ∧
    HasDerivAt (fun t => value moEv moFt.cores ([3, 4].set i t)) gi ([3, 4][i]'hi) :=
  gradEval_hasDerivAt_partial (x := [3, 4]) (out := [0, 0]) moFt_wf (by decide) (by decide) (by decide)
    fun _ _ xi _ _ f _ => hasDerivAt_pow f xi

example : ∃ g, gradEval moEv moD moFt [3, 4] [0, 0] = .ok g ∧ g[0]? = some 10 ∧ g[1]? = some 3 := by
  obtain ⟨g, h1, -, h3⟩ := gradEval_value_partial (e := moEv) (d := moD) (x := [3, 4]) (out := [0, 0])
    moFt_wf (by decide) (by decide) (by decide)
  refine ⟨g, h1, (h3 0 (by decide)).trans ?_, (h3 1 (by decide)).trans ?_⟩ <;>
    simp [dvalue, mats, chain, moFt, moEv, moD, Qma.val, Finset.sum_range_succ] <;> norm_num

end C3.Ft

/-
C94: values, derivatives, integrals and inner products of kernel expansions.
-/
import Verif.Kern.Gauss
import Verif.Core.Buf

namespace C3.Kern

open Finset

/-- Specification: a sum of Gaussians. -/
noncomputable def gsum (n : Nat) (a s w c : Nat → ℝ) (x : ℝ) : ℝ := ∑ i ∈ range n, a i * gk (s i) (w i) (c i) x

/-- The kernel with number `i`. -/
def KE.kn (ke : KE) (i : Nat) : Kern := (ke.kernels.getD i none).getD ⟨.none, 0, []⟩
/-- Coefficient, scale, squared width and centre with number `i`. -/
def KE.a (ke : KE) (i : Nat) : ℝ := ke.coeff.getD i 0
def KE.s (ke : KE) (i : Nat) : ℝ := (ke.kn i).params.getD 0 0
def KE.w (ke : KE) (i : Nat) : ℝ := (ke.kn i).params.getD 1 0
def KE.c (ke : KE) (i : Nat) : ℝ := (ke.kn i).params.getD 2 0

/-- The function represented by an expansion. -/
noncomputable def KE.fn (ke : KE) (x : ℝ) : ℝ := gsum ke.nk ke.a ke.s ke.w ke.c x

/-- A well formed expansion of Gaussians of positive width. -/
structure Good (ke : KE) : Prop where
  pos : 0 < ke.nalloc
  hc : ke.coeff.length = ke.nalloc
  hk : ke.kernels.length = ke.nalloc
  hn : ke.nk ≤ ke.nalloc
  each : ∀ i < ke.nk, ∃ s w c, 0 < w ∧ ke.kernels[i]? = some (some ⟨.gauss, 3, [s, w, c]⟩)
  all : ∀ (i : Nat) (k : Kern), ke.kernels[i]? = some (some k) → k.params.length = k.nparams

theorem Good.kat {ke : KE} (h : Good ke) {i : Nat} (hi : i < ke.nk) :
    ke.kernels[i]? = some (some ⟨.gauss, 3, [ke.s i, ke.w i, ke.c i]⟩) ∧
    Kern.kat ke.kernels i = .ok ⟨.gauss, 3, [ke.s i, ke.w i, ke.c i]⟩ ∧ 0 < ke.w i := by
  obtain ⟨s, w, c, hw, e⟩ := h.each i hi
  have e1 : ke.kn i = ⟨.gauss, 3, [s, w, c]⟩ := by
    rw [KE.kn, List.getD_eq_getElem?_getD, e]; rfl
  have e2 : ke.s i = s := by rw [KE.s, e1]; rfl
  have e3 : ke.w i = w := by rw [KE.w, e1]; rfl
  have e4 : ke.c i = c := by rw [KE.c, e1]; rfl
  rw [e2, e3, e4]
  refine ⟨e, ?_, hw⟩
  rw [Kern.kat, rd_of_getElem? e, bind_ok]; rfl

theorem Good.rdc {ke : KE} (h : Good ke) {i : Nat} (hi : i < ke.nk) : rd ke.coeff i = .ok (ke.a i) :=
  rd_getD 0 (by have := h.hc; have := h.hn; omega)

theorem par_ok (s w c : ℝ) : par ⟨.gauss, 3, [s, w, c]⟩ = .ok (s, w, c) := rfl

theorem gsum_continuous (n : Nat) (a s w c : Nat → ℝ) : Continuous (gsum n a s w c) := by
  unfold gsum
  exact continuous_finsetSum _ fun i _ => (gk_continuous _ _ _).const_mul _

/-- C94: evaluation. -/
theorem eval_ok {ke : KE} (h : Good ke) (x : ℝ) : eval ke x = .ok (ke.fn x) := by
  unfold eval
  rw [forN_sum (fun i => ke.a i * gk (ke.s i) (ke.w i) (ke.c i) x), zero_add]; · rfl
  intro i hi s
  obtain ⟨-, h2, h3⟩ := h.kat hi
  rw [h.rdc hi, bind_ok, h2, bind_ok, kEval, par_ok, bind_ok, gaussEval_ok h3.ne', bind_ok]; rfl

/-- C94: evaluation at many points with strides writes the values and nothing else. -/
theorem evalN_ok {ke : KE} (h : Good ke) {N incx incy : Nat} {x y : List ℝ} (hx : ∀ i < N, i * incx < x.length) (hy : ∀ i < N, i * incy < y.length)
    (hi : 0 < incy) : ∃ y', evalN ke N x incx y incy = .ok y' ∧ y'.length = y.length ∧
      (∀ i < N, y'[i * incy]? = some (ke.fn (x.getD (i * incx) 0))) ∧ ∀ p, (∀ i < N, p ≠ i * incy) → y'[p]? = y[p]? := by
  obtain ⟨b, h1, h2, h3, h4⟩ := forN_scatter (n := N) (a := y) (body := fun ii y => do
      let v ← rd x (ii * incx)
      let e ← eval ke v
      wr y (ii * incy) e) (fun i => i * incy) (fun i => ke.fn (x.getD (i * incx) 0)) (fun i hi => hy i hi)
    (fun i _ j _ e => Nat.eq_of_mul_eq_mul_right hi e)
    (by
      intro i hi b _ _ _
      rw [rd_getD 0 (hx i hi), bind_ok, eval_ok h, bind_ok])
  exact ⟨b, h1, h2, h3, fun p hp => h4 p fun i hi e => hp i hi e.symm⟩

/-- C94: the evaluated derivative is the derivative. -/
theorem derivEval_ok {ke : KE} (h : Good ke) (x : ℝ) : ∃ v, derivEval ke x = .ok v ∧ HasDerivAt ke.fn v x := by
  have hd : ∀ i, ∃ v, i < ke.nk → gaussDeriv (ke.s i) (ke.w i) (ke.c i) x = .ok v ∧ HasDerivAt (gk (ke.s i) (ke.w i) (ke.c i)) v x := by
    intro i
    by_cases hi : i < ke.nk
    · obtain ⟨v, h1, h2⟩ := gaussDeriv_ok (h.kat hi).2.2.ne' (ke.s i) (ke.c i) x
      exact ⟨v, fun _ => ⟨h1, h2⟩⟩
    · exact ⟨0, fun h => absurd h hi⟩
  choose d hd using hd
  refine ⟨∑ i ∈ range ke.nk, ke.a i * d i, ?_, ?_⟩
  · unfold derivEval
    rw [forN_sum (fun i => ke.a i * d i), zero_add]
    intro i hi s
    obtain ⟨-, h2, h3⟩ := h.kat hi
    rw [h.rdc hi, bind_ok, h2, bind_ok, kDeriv, par_ok, bind_ok, (hd i hi).1, bind_ok]; rfl
  · have := HasDerivAt.fun_sum (u := range ke.nk) (A := fun i x => ke.a i * gk (ke.s i) (ke.w i) (ke.c i) x) (A' := fun i => ke.a i * d i) (x := x)
      (fun i hi => ((hd i (mem_range.1 hi)).2).const_mul (ke.a i))
    exact this

theorem gsum_integral (n : Nat) (a s w c : Nat → ℝ) (lb ub : ℝ) :
    ∫ x in lb..ub, gsum n a s w c x = ∑ i ∈ range n, a i * ∫ x in lb..ub, gk (s i) (w i) (c i) x := by
  simp only [gsum]
  rw [intervalIntegral.integral_finsetSum fun i _ => ((gk_continuous _ _ _).const_mul _).intervalIntegrable _ _]
  exact sum_congr rfl fun i _ => intervalIntegral.integral_const_mul _ _

/-- C94: the integral over the domain. -/
theorem integrate_ok {ke : KE} (h : Good ke) : integrate ke = .ok (∫ x in ke.lb..ke.ub, ke.fn x) := by
  unfold integrate
  rw [forN_sum (fun i => ke.a i * ∫ x in ke.lb..ke.ub, gk (ke.s i) (ke.w i) (ke.c i) x), zero_add]
  · simp only [KE.fn]; rw [gsum_integral]
  intro i hi s
  obtain ⟨-, h2, h3⟩ := h.kat hi
  rw [h.rdc hi, bind_ok, h2, bind_ok, kInt, par_ok, bind_ok, gaussInt_ok h3, bind_ok]; rfl

theorem gsum_inner (n m : Nat) (a s w c a' s' w' c' : Nat → ℝ) (lb ub : ℝ) :
    ∫ x in lb..ub, gsum n a s w c x * gsum m a' s' w' c' x =
      ∑ i ∈ range n, ∑ j ∈ range m, a i * a' j * ∫ x in lb..ub, gk (s i) (w i) (c i) x * gk (s' j) (w' j) (c' j) x := by
  have e : ∀ x, gsum n a s w c x * gsum m a' s' w' c' x =
      ∑ i ∈ range n, ∑ j ∈ range m, a i * a' j * (gk (s i) (w i) (c i) x * gk (s' j) (w' j) (c' j) x) := by
    intro x
    rw [gsum, gsum, sum_mul_sum]
    exact sum_congr rfl fun i _ => sum_congr rfl fun j _ => by ring
  have hc : ∀ i j, Continuous fun x => a i * a' j * (gk (s i) (w i) (c i) x * gk (s' j) (w' j) (c' j) x) := fun i j =>
    ((gk_continuous _ _ _).mul (gk_continuous _ _ _)).const_mul _
  simp only [e]
  rw [intervalIntegral.integral_finsetSum fun i _ => (continuous_finsetSum _ fun j _ => hc i j).intervalIntegrable _ _]
  refine sum_congr rfl fun i _ => ?_
  rw [intervalIntegral.integral_finsetSum fun j _ => (hc i j).intervalIntegrable _ _]
  exact sum_congr rfl fun j _ => intervalIntegral.integral_const_mul _ _

theorem kInner_ok {a b : KE} (ha : Good a) (hb : Good b) {i j : Nat} (hi : i < a.nk) (hj : j < b.nk) (lb ub : ℝ) :
    kInner ⟨.gauss, 3, [a.s i, a.w i, a.c i]⟩ ⟨.gauss, 3, [b.s j, b.w j, b.c j]⟩ lb ub =
      .ok (∫ x in lb..ub, gk (a.s i) (a.w i) (a.c i) x * gk (b.s j) (b.w j) (b.c j) x) := by
  rw [kInner, par_ok, bind_ok, par_ok, bind_ok]
  exact gaussInner_ok (ha.kat hi).2.2 (hb.kat hj).2.2 _ _ _ _ _ _

/-- C94: the inner product is the integral of the product over the intersection of the domains. -/
theorem inner_ok {a b : KE} (ha : Good a) (hb : Good b) :
    inner a b = .ok (∫ x in max a.lb b.lb..min a.ub b.ub, a.fn x * b.fn x) := by
  unfold inner
  have e1 : (if a.lb < b.lb then b.lb else a.lb) = max a.lb b.lb := by
    split
    · exact (max_eq_right (le_of_lt ‹_›)).symm
    · exact (max_eq_left (not_lt.1 ‹_›)).symm
  have e2 : (if a.ub > b.ub then b.ub else a.ub) = min a.ub b.ub := by
    split
    · exact (min_eq_right (le_of_lt ‹_›)).symm
    · exact (min_eq_left (not_lt.1 ‹_›)).symm
  rw [e1, e2]
  dsimp only
  rw [forN_sum (fun i => ∑ j ∈ range b.nk, a.a i * b.a j * ∫ x in max a.lb b.lb..min a.ub b.ub,
    gk (a.s i) (a.w i) (a.c i) x * gk (b.s j) (b.w j) (b.c j) x), zero_add]
  · simp only [KE.fn]; rw [gsum_inner]
  intro i hi s
  refine forN_sum (fun j => a.a i * b.a j * ∫ x in max a.lb b.lb..min a.ub b.ub, gk (a.s i) (a.w i) (a.c i) x * gk (b.s j) (b.w j) (b.c j) x) ?_
  intro j hj s
  rw [ha.rdc hi, bind_ok, hb.rdc hj, bind_ok, (ha.kat hi).2.1, bind_ok, (hb.kat hj).2.1, bind_ok, kInner_ok ha hb hi hj, bind_ok]; rfl

/-- A concrete expansion: `exp(-x^2) + 2 exp(-(x-1)^2)` on `[-1, 1]`. -/
def exKE : KE := ⟨2, 2, [1, 2], [some (gaussian 1 1 0), some (gaussian 1 1 1)], -1, 1, 0⟩

theorem exKE_good : Good exKE := by
  refine ⟨by simp [exKE], rfl, rfl, le_rfl, ?_, ?_⟩
  · intro i hi
    have : i = 0 ∨ i = 1 := by simp only [exKE] at hi; omega
    rcases this with rfl | rfl
    · exact ⟨1, 1 * 1, 0, by norm_num, rfl⟩
    · exact ⟨1, 1 * 1, 1, by norm_num, rfl⟩
  · intro i k hk
    rcases i with _ | _ | i
    · cases hk; rfl
    · cases hk; rfl
    · cases hk

/-- The hypotheses of the theorems of this file can be met. -/
example : (∃ v, eval exKE 3 = .ok v) ∧ ∃ v, inner exKE exKE = .ok v := ⟨⟨_, eval_ok exKE_good 3⟩, ⟨_, inner_ok exKE_good exKE_good⟩⟩

theorem getD_lt {l : List ℝ} {i : Nat} (h : i < l.length) : l.getD i 0 = l[i] := by simp [h]

/-- C94: the largest absolute value over the given nodes, attained at the returned node. -/
theorem absmax_ok {ke : KE} (h : Good ke) {nd : List ℝ} (hn : nd ≠ []) : ∃ v x, absmax ke (some nd) = .ok (v, x) ∧ x ∈ nd ∧ v = |ke.fn x| ∧
    ∀ y ∈ nd, |ke.fn y| ≤ v := by
  have hpos : 0 < nd.length := List.length_pos_iff.2 hn
  unfold absmax
  dsimp only
  rw [rd_getD 0 hpos, bind_ok, eval_ok h, bind_ok]
  obtain ⟨⟨v, x⟩, h1, h2, h3, h4⟩ := forN_spec (n := nd.length) (body := fun ii (s : ℝ × ℝ) => do
      let x ← rd nd ii
      let v ← eval ke x
      pure (if |v| > s.1 then (|v|, x) else s))
    (I := fun i s => s.2 ∈ nd ∧ s.1 = |ke.fn s.2| ∧ ∀ j < i, |ke.fn (nd.getD j 0)| ≤ s.1) (s := (|ke.fn (nd.getD 0 0)|, nd.getD 0 0))
    ⟨by dsimp only; rw [getD_lt hpos]; exact List.getElem_mem hpos, rfl, by omega⟩
    (by
      rintro i hi ⟨v, x⟩ ⟨i1, i2, i3⟩
      refine ⟨_, by rw [rd_getD 0 hi, bind_ok, eval_ok h, bind_ok, pure_eq_ok], ?_⟩
      have hm : nd.getD i 0 ∈ nd := by rw [getD_lt hi]; exact List.getElem_mem hi
      dsimp only at i1 i2 i3 ⊢
      split
      · rename_i hgt
        refine ⟨hm, rfl, fun j hj => ?_⟩
        rcases Nat.lt_succ_iff_lt_or_eq.1 hj with c | c
        · exact (i3 j c).trans hgt.le
        · rw [c]
      · rename_i hle
        refine ⟨i1, i2, fun j hj => ?_⟩
        rcases Nat.lt_succ_iff_lt_or_eq.1 hj with c | c
        · exact i3 j c
        · rw [c]; exact not_lt.1 hle)
  refine ⟨v, x, h1, h2, h3, fun y hy => ?_⟩
  obtain ⟨j, hj, e⟩ := List.getElem_of_mem hy
  have := h4 j hj
  rwa [getD_lt hj, e] at this

/-- C94: without nodes the program ends, with an empty vector it reads beyond it. -/
theorem absmax_empty_counterexample (ke : KE) : absmax ke none = .error .exit ∧ absmax ke (some []) = .error .oob := ⟨rfl, rfl⟩

end C3.Kern

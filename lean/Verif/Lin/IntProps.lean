/- C33 and C57: integral and inner product of linear elements. -/
import Verif.Lin.AlgProps
import Mathlib.Analysis.SpecialFunctions.Integrals.Basic

set_option linter.unusedSectionVars false

namespace C3.Lin
open Finset MeasureTheory

section
variable {K : Type} [Field K] [LinearOrder K] [IsStrictOrderedRing K]

/-- The loop is the trapezoidal rule. -/
theorem trap_ok {num : Nat} {nodes : List K} {c : Nat → C K} (g : Nat → K) (hn : nodes.length = num) (two : 2 ≤ num)
    (hc : ∀ i < num, c i = .ok (g i)) :
    trap num nodes c = .ok (∑ i ∈ range (num - 1), (g i + g (i + 1)) / 2 * (nodes.getD (i + 1) 0 - nodes.getD i 0)) := by
  obtain ⟨s, h1, h2⟩ := forR_spec (a := 1) (b := num - 1) (s := g 0 * (nodes.getD 1 0 - nodes.getD 0 0) * (1 / 2))
    (body := fun ii s => do
      let np ← rd nodes (ii + 1)
      let nm ← rd nodes (ii - 1)
      let ci ← c ii
      pure (s + ci * (np - nm) * (1 / 2)))
    (I := fun m s => s = ∑ i ∈ range (m - 1), (g i + g (i + 1)) / 2 * (nodes.getD (i + 1) 0 - nodes.getD i 0) +
      g (m - 1) * (nodes.getD m 0 - nodes.getD (m - 1) 0) * (1 / 2))
    (by omega) (by simp) (by
      rintro i hi1 hi2 s rfl
      refine ⟨_, by rw [rd_getD 0 (by omega), bind_ok, rd_getD 0 (by omega), bind_ok, hc i (by omega), bind_ok, pure_eq_ok], ?_⟩
      obtain ⟨m, rfl⟩ : ∃ m, i = m + 1 := ⟨i - 1, by omega⟩
      simp only [Nat.add_sub_cancel]
      rw [sum_range_succ]
      ring)
  obtain ⟨m, rfl⟩ : ∃ m, num = m + 2 := ⟨num - 2, by omega⟩
  rw [trap, rd_getD 0 (by omega), bind_ok, rd_getD 0 (by omega), bind_ok, hc 0 (by omega), bind_ok, h1, bind_ok,
    rd_getD 0 (by omega), bind_ok, rd_getD 0 (by omega), bind_ok, hc _ (by omega), bind_ok, pure_eq_ok, h2]
  simp only [show m + 2 - 1 = m + 1 by omega, show m + 2 - 2 = m by omega, Nat.add_sub_cancel]
  rw [sum_range_succ]
  congr 1
  ring

/-- **C33** In any ordered field the integral is the trapezoidal sum. -/
theorem integrate_trapezoid {f : LE K} (hf : f.WF) :
    integrate f = .ok (∑ i ∈ range (f.num - 1), (f.cf i + f.cf (i + 1)) / 2 * (f.nd (i + 1) - f.nd i)) := by
  have := hf.two
  rw [integrate, cassert_of (by simp; omega), bind_ok]
  exact trap_ok f.cf hf.hn hf.two fun i hi => LE.rd_cf hf hi

/-- Inner product on a common grid: the trapezoidal sum of the products. -/
theorem inner_common {tol : K} (ht : 0 ≤ tol) {f g : LE K} (hf : f.WF) (hg : g.WF) (hn : f.nodes = g.nodes) :
    inner tol f g = .ok (∑ i ∈ range (f.num - 1),
      (f.cf i * g.cf i + f.cf (i + 1) * g.cf (i + 1)) / 2 * (f.nd (i + 1) - f.nd i)) := by
  have hnum : f.num = g.num := by rw [← hf.hn, ← hg.hn, hn]
  rw [inner, sdiscp_ok hf hg hnum, bind_ok, if_pos (by
      rw [decide_eq_true_eq]; intro i _; rw [LE.nd, LE.nd, hn, sub_self, abs_zero]; exact ht), innerSame]
  exact trap_ok (fun i => f.cf i * g.cf i) hf.hn hf.two fun i hi => by
    rw [LE.rd_cf hf hi, bind_ok, LE.rd_cf hg (by omega), bind_ok, pure_eq_ok]

/-- **C57** On a common grid the inner product is symmetric. -/
theorem inner_symm {tol : K} (ht : 0 ≤ tol) {f g : LE K} (hf : f.WF) (hg : g.WF) (hn : f.nodes = g.nodes) :
    inner tol f g = inner tol g f := by
  have hnum : f.num = g.num := by rw [← hf.hn, ← hg.hn, hn]
  rw [inner_common ht hf hg hn, inner_common ht hg hf hn.symm, hnum]
  congr 1
  refine sum_congr rfl fun i _ => ?_
  rw [LE.nd, LE.nd, LE.nd, LE.nd, hn]
  ring

/-- **C57** On a common grid the inner product is linear in the first argument, as computed by the library's own sum. -/
theorem inner_linear {tol : K} (ht : 0 ≤ tol) {f g h : LE K} (hf : f.WF) (hg : g.WF) (hh : h.WF) (hfg : f.nodes = g.nodes)
    (hgh : g.nodes = h.nodes) (a : K) :
    ∃ s p q, axpy tol a f g = .ok s ∧ inner tol f h = .ok p ∧ inner tol g h = .ok q ∧ inner tol s h = .ok (a * p + q) := by
  have hnum : f.num = g.num := by rw [← hf.hn, ← hg.hn, hfg]
  have e := forN_inplace (n := g.num) (a := g.coeff) (body := fun i c => do
    let u ← rd f.coeff i
    let w ← rd c i
    wr c i (a * u + w)) hg.hc (fun i w => a * f.cf i + w) (by
      intro i hi b hb1 hb2
      rw [LE.rd_cf hf (by omega), bind_ok, rd_getD 0 (by omega), bind_ok, hb2])
  have hw : (LE.mk g.num g.nodes ((List.range g.num).map fun i => a * f.cf i + g.coeff.getD i 0)).WF := WF.swap hg (by simp)
  refine ⟨⟨g.num, g.nodes, (List.range g.num).map fun i => a * f.cf i + g.coeff.getD i 0⟩, _, _, ?_, inner_common ht hf hh (hfg.trans hgh), inner_common ht hg hh hgh, ?_⟩
  · rw [axpy, sdiscp_ok hf hg hnum, bind_ok, if_pos (by
      rw [decide_eq_true_eq]; intro i _; rw [LE.nd, LE.nd, hfg, sub_self, abs_zero]; exact ht), axpySame, e, bind_ok]
    rfl
  · rw [inner_common ht hw hh hgh, mul_sum, hnum, ← sum_add_distrib]
    congr 1
    refine sum_congr rfl fun i hi => ?_
    rw [mem_range] at hi
    have c1 : ∀ j, j < g.num → (LE.mk g.num g.nodes ((List.range g.num).map fun i => a * f.cf i + g.coeff.getD i 0)).cf j =
        a * f.cf j + g.cf j := fun j hj => map_range_getD _ hj
    rw [c1 i (by omega), c1 (i + 1) (by omega)]
    have n1 : ∀ j, (LE.mk g.num g.nodes ((List.range g.num).map fun i => a * f.cf i + g.coeff.getD i 0)).nd j = g.nd j :=
      fun _ => rfl
    have n2 : ∀ j, f.nd j = g.nd j := fun j => by rw [LE.nd, LE.nd, hfg]
    rw [n1, n1, n2, n2]
    ring

/-- **C57** The inner product of an expansion with itself is nonnegative, and positive unless all coefficients vanish. -/
theorem inner_pos {tol : K} (ht : 0 ≤ tol) {f : LE K} (hf : f.WF) :
    ∃ v, inner tol f f = .ok v ∧ 0 ≤ v ∧ (v = 0 → ∀ i < f.num, f.cf i = 0) := by
  refine ⟨_, inner_common ht hf hf rfl, ?_⟩
  have h0 : ∀ i ∈ range (f.num - 1), 0 ≤ (f.cf i * f.cf i + f.cf (i + 1) * f.cf (i + 1)) / 2 * (f.nd (i + 1) - f.nd i) := by
    intro i hi
    rw [mem_range] at hi
    refine mul_nonneg (div_nonneg (add_nonneg (mul_self_nonneg _) (mul_self_nonneg _)) (by norm_num)) ?_
    exact (sub_pos.2 (hf.inc i (by omega))).le
  refine ⟨sum_nonneg h0, fun hz i hi => ?_⟩
  have two := hf.two
  have key : ∀ k, k + 1 < f.num → f.cf k = 0 ∧ f.cf (k + 1) = 0 := by
    intro k hk
    have h1 := (sum_eq_zero_iff_of_nonneg h0).1 hz k (mem_range.2 (by omega))
    have hd := (sub_pos.2 (hf.inc k hk)).ne'
    have h2 : f.cf k * f.cf k + f.cf (k + 1) * f.cf (k + 1) = 0 := by
      rcases mul_eq_zero.1 h1 with h | h
      · linarith
      · exact absurd h hd
    have a1 := mul_self_nonneg (f.cf k)
    have a2 := mul_self_nonneg (f.cf (k + 1))
    exact ⟨mul_self_eq_zero.1 (by linarith), mul_self_eq_zero.1 (by linarith)⟩
  by_cases h : i + 1 < f.num
  · exact (key i h).1
  · obtain ⟨m, rfl⟩ : ∃ m, i = m + 1 := ⟨i - 1, by omega⟩
    exact (key m hi).2

end

/-! ### Over the reals -/

theorem integral_affine (a b u s : ℝ) : ∫ x in a..b, (u + s * (x - a)) = u * (b - a) + s * (b - a) ^ 2 / 2 := by
  rw [intervalIntegral.integral_eq_sub_of_hasDerivAt (f := fun x => u * x + s * (x - a) ^ 2 / 2)]
  · ring
  · intro x _
    have h1 : HasDerivAt (fun x : ℝ => x - a) 1 x := (hasDerivAt_id x).sub_const a
    have h2 := ((h1.pow 2).const_mul s).div_const 2
    have h3 := ((hasDerivAt_id x).const_mul u).add h2
    have e : u + s * (x - a) = u * 1 + s * (((2 : ℕ) : ℝ) * (x - a) ^ (2 - 1) * 1) / 2 := by push_cast; ring
    rw [e]
    exact h3
  · exact (by fun_prop : Continuous fun x : ℝ => u + s * (x - a)).intervalIntegrable _ _

/-- The interpolant's integral is the trapezoidal sum. -/
theorem integral_pl {f : LE ℝ} (hf : f.WF) :
    IntervalIntegrable (pl f.nodes f.coeff) volume (f.nd 0) (f.nd (f.num - 1)) ∧
    ∫ x in f.nd 0..f.nd (f.num - 1), pl f.nodes f.coeff x =
      ∑ i ∈ range (f.num - 1), (f.cf i + f.cf (i + 1)) / 2 * (f.nd (i + 1) - f.nd i) := by
  have seg : ∀ k < f.num - 1, Set.EqOn (pl f.nodes f.coeff)
      (fun x => f.cf k + (f.cf (k + 1) - f.cf k) / (f.nd (k + 1) - f.nd k) * (x - f.nd k)) (Set.uIcc (f.nd k) (f.nd (k + 1))) := by
    intro k hk x hx
    rw [Set.uIcc_of_le (hf.inc k (by omega)).le] at hx
    exact pl_seg hf (by omega) hx.1 hx.2
  have hint : ∀ k < f.num - 1, IntervalIntegrable (pl f.nodes f.coeff) volume (f.nd k) (f.nd (k + 1)) := by
    intro k hk
    have : Continuous fun x : ℝ => f.cf k + (f.cf (k + 1) - f.cf k) / (f.nd (k + 1) - f.nd k) * (x - f.nd k) := by fun_prop
    exact (this.intervalIntegrable _ _).congr (fun x hx => (seg k hk (Set.uIoc_subset_uIcc hx)).symm)
  refine ⟨IntervalIntegrable.trans_iterate hint, ?_⟩
  rw [← intervalIntegral.sum_integral_adjacent_intervals hint]
  refine sum_congr rfl fun k hk => ?_
  rw [mem_range] at hk
  rw [intervalIntegral.integral_congr (seg k hk), integral_affine]
  have hd := (sub_pos.2 (hf.inc k (by omega))).ne'
  field_simp
  ring

/-- **C33** The integral of a linear-element expansion is the integral of its interpolant over the node range; by
`eval_value_exact` the interpolant is what evaluation computes (up to the tolerance, `eval_close`). -/
theorem integrate_value {f : LE ℝ} (hf : f.WF) :
    integrate f = .ok (∫ x in f.nd 0..f.nd (f.num - 1), pl f.nodes f.coeff x) := by
  rw [(integral_pl hf).2]; exact integrate_trapezoid hf

/-- **C33** The same in terms of evaluation itself, without tolerance: every function that returns what evaluation returns has
this integral. -/
theorem integrate_eval {f : LE ℝ} (hf : f.WF) {F : ℝ → ℝ} (hF : ∀ x, eval 0 f x = .ok (F x)) :
    integrate f = .ok (∫ x in f.nd 0..f.nd (f.num - 1), F x) := by
  rw [integrate_value hf]
  have : F = pl f.nodes f.coeff := by
    funext x
    have h1 := hF x
    rw [eval_value_exact hf] at h1
    exact (Except.ok.inj h1).symm
  rw [this]

/-- **C57** Inner product with a constant function: the integral of the product, exactly. Missing: two non-constant
functions, for which the rule is not exact (`inner_counterexample`). -/
theorem inner_integral_partial {tol : ℝ} (ht : 0 ≤ tol) {f g : LE ℝ} (hf : f.WF) (hg : g.WF) (hn : f.nodes = g.nodes) {c : ℝ}
    (hcst : ∀ i < f.num, f.cf i = c) :
    inner tol f g = .ok (∫ x in f.nd 0..f.nd (f.num - 1), pl f.nodes f.coeff x * pl g.nodes g.coeff x) := by
  have hnum : f.num = g.num := by rw [← hf.hn, ← hg.hn, hn]
  have hnd : ∀ j, f.nd j = g.nd j := fun j => by rw [LE.nd, LE.nd, hn]
  have two := hf.two
  have hfc : Set.EqOn (fun x => pl f.nodes f.coeff x * pl g.nodes g.coeff x) (fun x => c * pl g.nodes g.coeff x)
      (Set.uIcc (f.nd 0) (f.nd (f.num - 1))) := by
    intro x hx
    rw [Set.uIcc_of_le (hf.le (by omega) (by omega))] at hx
    obtain ⟨i, hi, h1, h2⟩ := seg_exists hf hx.1 hx.2
    show pl f.nodes f.coeff x * _ = c * _
    rw [pl_seg hf hi h1 h2, hcst i (by omega), hcst (i + 1) hi]
    simp
  rw [intervalIntegral.integral_congr hfc, intervalIntegral.integral_const_mul, hnd, hnd, hnum, (integral_pl hg).2,
    inner_common ht hf hg hn, mul_sum, hnum]
  congr 1
  refine sum_congr rfl fun i hi => ?_
  rw [mem_range] at hi
  rw [hcst i (by omega), hcst (i + 1) (by omega), hnd, hnd]
  ring

/-- **C57** `x` times `x` on the unit interval: the inner product is 1/2, the integral of the product is 1/3. -/
theorem inner_counterexample :
    inner (1 / 10 ^ 15 : ℝ) ⟨2, [0, 1], [0, 1]⟩ ⟨2, [0, 1], [0, 1]⟩ = .ok (1 / 2) ∧
      ∫ x in (0 : ℝ)..1, pl [0, 1] [0, 1] x * pl [0, 1] [0, 1] x = 1 / 3 := by
  have hw : (LE.mk 2 [0, 1] [0, 1] : LE ℝ).WF := ⟨rfl, rfl, by simp, by
    intro i hi
    have : i = 0 := by dsimp at hi; omega
    subst this; norm_num [LE.nd]⟩
  constructor
  · rw [inner_common (by norm_num) hw hw rfl]
    norm_num [LE.cf, LE.nd]
  · have : Set.EqOn (fun x : ℝ => pl [0, 1] [0, 1] x * pl [0, 1] [0, 1] x) (fun x => x ^ 2) (Set.uIcc 0 1) := by
      intro x hx
      rw [Set.uIcc_of_le zero_le_one] at hx
      have : pl [0, 1] [0, 1] x = x := by
        rw [pl, if_pos hx.2, if_neg (not_lt.2 hx.1)]; norm_num
      show pl [0, 1] [0, 1] x * pl [0, 1] [0, 1] x = x ^ 2
      rw [this]; ring
    rw [intervalIntegral.integral_congr this, integral_pow]
    norm_num

theorem exWFR : (LE.mk 3 [0, 1, 3] [2, 5, 1] : LE ℝ).WF :=
  ⟨rfl, rfl, by simp, by
    intro i hi
    have : i = 0 ∨ i = 1 := by dsimp at hi; omega
    rcases this with rfl | rfl <;> norm_num [LE.nd]⟩

example := integrate_value exWFR
example := integrate_eval exWFR (F := pl _ _) (fun x => eval_value_exact exWFR x)
example := inner_linear (tol := 1 / 10 ^ 15) (by norm_num) exWF exWF (WF.swap exWF (c := [1, 1, 4]) rfl) rfl rfl 7
example := inner_integral_partial (tol := 1 / 10 ^ 15) (c := 4) (by norm_num) (WF.swap exWFR (c := [4, 4, 4]) rfl) exWFR rfl (by
  intro i hi
  have : i = 0 ∨ i = 1 ∨ i = 2 := by dsimp at hi; omega
  rcases this with rfl | rfl | rfl <;> norm_num [LE.cf])

end C3.Lin

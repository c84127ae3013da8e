/-
C79: consequences, a concrete case, and inputs on which the routines fail.
-/
import Verif.Prob.FtSobol
import Mathlib.Analysis.SpecialFunctions.Integrals.Basic

set_option linter.unusedSectionVars false

namespace C3.Prob
open Finset
open C3.Ft
variable {K U X : Type} [Field K] {e : Ev K U X} {F : Fam U X} {I : Integ K X} {o : LOps K U} {int : U → C K} {inner : U → U → C K} {ft : FT K U}

/-- C79: the variance is not negative, main effects lie between 0 and the variance, total sensitivities between the share of the main effect and 1. -/
theorem sobol_bounds [LinearOrder K] [IsStrictOrderedRing K] (h : SobHyp e F I o int inner ft) (hp : ProbLaw F.D I) (h2 : 2 ≤ ft.dim) (hn : ft.dim < 2 ^ 64)
    (hv : fullVar I ft.dim (value e ft.cores) ≠ 0) (order : Nat) {s : Sobol K} (hs : sobol o int inner ft order = .ok s) :
    0 < s.variance ∧ ∀ i < ft.dim, ∃ m t, getMain s.tree i = .ok m ∧ s.total[i]? = some t ∧ 0 ≤ m ∧ m / s.variance ≤ t ∧ t ≤ 1 := by
  obtain ⟨s', e1, hvar, -, hmain, htot, hsum, -⟩ := sobol_value h h2 hn hv order
  rw [hs] at e1
  cases e1
  have hnn : ∀ u ∈ (range ft.dim).powerset, 0 ≤ inter (condV I ft.dim (value e ft.cores)) u := fun u hu => inter_nonneg h hp (mem_powerset.1 hu)
  have hpos : 0 < s.variance := lt_of_le_of_ne (hsum ▸ sum_nonneg hnn) (by rw [hvar]; exact Ne.symm hv)
  refine ⟨hpos, fun i hi => ⟨_, _, hmain i hi, htot i hi, hnn {i} (by simpa using hi), ?_, ?_⟩⟩
  · rw [div_le_div_iff_of_pos_right hpos]
    exact single_le_sum (f := fun u => inter (condV I ft.dim (value e ft.cores)) u) (fun u hu => hnn u (mem_filter.1 hu).1) (a := {i}) (by simpa using hi)
  · rw [div_le_one hpos, ← hsum]
    exact sum_le_sum_of_subset_of_nonneg (filter_subset _ _) fun u hu _ => hnn u hu

/-! ### A concrete case -/

theorem r_sob : SobHyp rEv rFam (rInteg (fun _ => 0) (fun _ => 1)) rOps (rInt 0 1) (rInner 0 1) rFt :=
  ⟨r_intLaw _ _, r_lin, r_mem _ _, r_mem2 _ _, r_quad 0 1, r_inner 0 1, rFt_ok⟩

theorem r_prob : ProbLaw rFam.D (rInteg (fun _ => 0) (fun _ => 1)) where
  one := fun _ => ⟨fun _ _ => by simp, by simp [rInteg]⟩
  nonneg := fun _ g _ h => intervalIntegral.integral_nonneg (by norm_num) fun x _ => h x trivial

theorem r_int_sq (c : ℝ) : ∫ x in (0 : ℝ)..1, (x + c) * (x + c) = 1 / 3 + c + c ^ 2 := by
  have : ∀ y : ℝ, (y + c) * (y + c) = y ^ 2 + (2 * c * y + c ^ 2) := fun y => by ring
  simp only [this]
  rw [intervalIntegral.integral_add (f := fun y => y ^ 2) (g := fun y => 2 * c * y + c ^ 2) (Continuous.intervalIntegrable (by fun_prop) _ _)
      (Continuous.intervalIntegrable (by fun_prop) _ _),
    intervalIntegral.integral_add (f := fun y => 2 * c * y) (g := fun y => c ^ 2) (Continuous.intervalIntegrable (by fun_prop) _ _)
      (Continuous.intervalIntegrable (by fun_prop) _ _), intervalIntegral.integral_const_mul]
  simp [integral_pow]; ring

theorem r_int_lin (c : ℝ) : ∫ x in (0 : ℝ)..1, (x + c) = 1 / 2 + c := by
  rw [intervalIntegral.integral_add (f := fun x => x) (g := fun _ => c) (Continuous.intervalIntegrable (by fun_prop) _ _) (Continuous.intervalIntegrable (by fun_prop) _ _)]
  simp

/-- The mean of `x + y` over `y ∈ [0,1]`, and over `x`. -/
theorem r_mean (x : ℝ) : (∫ y in (0 : ℝ)..1, value rEv rFt.cores [x, y]) = x + 1 / 2 ∧ (∫ y in (0 : ℝ)..1, value rEv rFt.cores [y, x]) = x + 1 / 2 := by
  simp only [rFt_value]
  refine ⟨?_, ?_⟩
  · simp only [add_comm x]
    rw [r_int_lin, add_comm]
  · rw [r_int_lin, add_comm]

theorem r_var : fullVar (rInteg (fun _ => 0) (fun _ => 1)) rFt.dim (value rEv rFt.cores) = 1 / 6 := by
  have h1 : iint (rInteg (fun _ => 0) (fun _ => 1)) 0 rFt.dim (value rEv rFt.cores) = 1 := by
    show (∫ x in (0 : ℝ)..1, ∫ y in (0 : ℝ)..1, value rEv rFt.cores [x, y]) = 1
    simp only [(r_mean _).1, r_int_lin]; norm_num
  have h2 : iint (rInteg (fun _ => 0) (fun _ => 1)) 0 rFt.dim (fun x => value rEv rFt.cores x * value rEv rFt.cores x) = 7 / 6 := by
    show (∫ x in (0 : ℝ)..1, ∫ y in (0 : ℝ)..1, value rEv rFt.cores [x, y] * value rEv rFt.cores [x, y]) = 7 / 6
    simp only [rFt_value]
    have : ∀ x : ℝ, ∫ y in (0 : ℝ)..1, (x + y) * (x + y) = (x + 1 / 2) * (x + 1 / 2) + 1 / 12 := fun x => by
      simp only [add_comm x]
      rw [r_int_sq]; ring
    simp only [this]
    rw [intervalIntegral.integral_add (f := fun x => (x + 1 / 2) * (x + 1 / 2)) (g := fun _ => 1 / 12) (Continuous.intervalIntegrable (by fun_prop) _ _)
      (Continuous.intervalIntegrable (by fun_prop) _ _), r_int_sq]
    simp; norm_num
  rw [fullVar, h1, h2]; norm_num

theorem r_condVar (i : Nat) (hi : i < 2) : condVar (rInteg (fun _ => 0) (fun _ => 1)) rFt.dim (value rEv rFt.cores) [i] = 1 / 12 := by
  have h : i = 0 ∨ i = 1 := by omega
  rcases h with rfl | rfl
  · show (∫ x in (0 : ℝ)..1, (∫ y in (0 : ℝ)..1, value rEv rFt.cores [x, y]) * (∫ y in (0 : ℝ)..1, value rEv rFt.cores [x, y])) -
      (∫ x in (0 : ℝ)..1, (∫ y in (0 : ℝ)..1, value rEv rFt.cores [x, y])) * (∫ x in (0 : ℝ)..1, (∫ y in (0 : ℝ)..1, value rEv rFt.cores [x, y])) = 1 / 12
    simp only [(r_mean _).1, r_int_lin, r_int_sq]; norm_num
  · show (∫ x in (0 : ℝ)..1, (∫ y in (0 : ℝ)..1, value rEv rFt.cores [y, x]) * (∫ y in (0 : ℝ)..1, value rEv rFt.cores [y, x])) -
      (∫ x in (0 : ℝ)..1, (∫ y in (0 : ℝ)..1, value rEv rFt.cores [y, x])) * (∫ x in (0 : ℝ)..1, (∫ y in (0 : ℝ)..1, value rEv rFt.cores [y, x])) = 1 / 12
    simp only [(r_mean _).2, r_int_lin, r_int_sq]; norm_num

/-- The hypotheses of `sobol_value`, `inter_nonneg` and `sobol_bounds` are met: `x + y` on the unit square has variance 1/6 and main effects 1/12, so no interaction. -/
example : ∃ s, sobol rOps (rInt 0 1) (rInner 0 1) rFt 2 = .ok s ∧ s.variance = 1 / 6 ∧ getMain s.tree 0 = .ok (1 / 12) ∧ getMain s.tree 1 = .ok (1 / 12) ∧
    getInteraction s.tree [0, 1] = .ok 0 ∧ 0 < s.variance := by
  have hv : fullVar (rInteg (fun _ => 0) (fun _ => 1)) rFt.dim (value rEv rFt.cores) ≠ 0 := by rw [r_var]; norm_num
  obtain ⟨s, e1, hvar, hint, hmain, -, hsum, -⟩ := sobol_value r_sob (Nat.le_refl 2) (by decide) hv 2
  have hc : ∀ i < 2, inter (condV (rInteg (fun _ => 0) (fun _ => 1)) rFt.dim (value rEv rFt.cores)) {i} = 1 / 12 := fun i hi => by
    rw [inter_single, condV, sort_singleton, r_condVar i hi]
  have h01 := hint [0, 1] ⟨by simp, by simp, by simp [rFt]⟩ (by rw [maxOrder_eq (Nat.le_refl 2)]; decide)
  have hsum' : ∑ u ∈ (range 2).powerset, inter (condV (rInteg (fun _ => 0) (fun _ => 1)) rFt.dim (value rEv rFt.cores)) u = 1 / 6 := by rw [← r_var, ← hvar]; exact hsum
  have hps : (range 2).powerset = {∅, {0}, {1}, {0, 1}} := by decide
  rw [hps, sum_insert (by decide), sum_insert (by decide), sum_insert (by decide), sum_singleton, inter_empty, hc 0 (by decide), hc 1 (by decide)] at hsum'
  refine ⟨s, e1, by rw [hvar, r_var], by rw [hmain 0 (by decide), hc 0 (by decide)], by rw [hmain 1 (by decide), hc 1 (by decide)], ?_, (sobol_bounds r_sob r_prob (Nat.le_refl 2) (by decide) hv 2 e1).1⟩
  rw [h01]
  congr 1
  have : ([0, 1] : List Nat).toFinset = {0, 1} := by decide
  rw [this]
  linarith

/-! ### Failures -/

/-- The code disagrees with C79 in one variable: for the total sensitivity it integrates the train over all of its variables, which the routine refuses with an
assertion, so that the program is aborted. -/
theorem sobol_one_counterexample [DecidableEq K] (h : SobHyp e F I o int inner ft) (h1 : ft.dim = 1) (order : Nat) : sobol o int inner ft order = .error .assertFail := by
  have hvL : ∀ L, Lab ft.dim L → interactVar o int inner ft L = .ok (condV I ft.dim (value e ft.cores) L.toFinset) := fun L hL => by
    rw [interactVar_value h hL, condV, sort_toFinset_of hL.sorted]
  obtain ⟨tree, e1, -⟩ := sobolTree_spec (order := order) (by rw [h1]; decide) hvL
  rw [sobol, sobolCalc, e1, bind_ok, ftVar_value h, bind_ok, h1]
  have hr : ftIntSubset o int ft [0] = .error .assertFail := intSubset_all_refused (by rw [h1]; decide)
  rw [forN_succ]
  simp only [forN, ebind_ok, hr, bind_error]

/-- The sensitivities of a constant function are not defined: the code divides by its variance, 0. -/
theorem sobol_constant_counterexample [DecidableEq K] (h : SobHyp e F I o int inner ft) (h2 : 2 ≤ ft.dim) (hn : ft.dim < 2 ^ 64) (hv : fullVar I ft.dim (value e ft.cores) = 0) (order : Nat) :
    sobol o int inner ft order = .error .ub := by
  have hvL : ∀ L, Lab ft.dim L → interactVar o int inner ft L = .ok (condV I ft.dim (value e ft.cores) L.toFinset) := fun L hL => by
    rw [interactVar_value h hL, condV, sort_toFinset_of hL.sorted]
  obtain ⟨tree, e1, -⟩ := sobolTree_spec (order := order) hn hvL
  have hL0 : Lab ft.dim [0] := ⟨by simp, by simp, by simp; omega⟩
  have hll := remDims_length hL0.sorted hL0.lt
  have hLab : Lab ft.dim (remDims [0] ft.dim) := ⟨by rw [← List.length_pos_iff, hll]; simp; omega, List.pairwise_lt_range.filter _, fun x hx => (remDims_mem.1 hx).1⟩
  have h0 := contract_value h hLab (by rw [hll]; simp; omega)
  rw [rem_rem hL0] at h0
  obtain ⟨d, hd⟩ : ∃ d, ft.dim = d + 1 := ⟨ft.dim - 1, by omega⟩
  have hfail : ∀ m, forN (m + 1) (fun ii t => do
      let vari ← ftIntSubset o int ft [ii] >>= fun g => ftVar o int inner g
      let q ← pdiv (0 - vari) 0
      wr t ii q) (List.replicate ft.dim (0 : K)) = .error .ub := fun m => by
    induction m with
    | zero =>
      rw [forN_succ]
      have h0' : (ftIntSubset o int ft [0] >>= fun g => ftVar o int inner g) = _ := h0
      simp only [forN, ebind_ok, h0', bind_ok, pdiv, if_true, bind_error]
    | succ m ih => rw [forN_succ, ih, ebind_error]
  rw [sobol, sobolCalc, e1, bind_ok, ftVar_value h, bind_ok, hv]
  have hf := hfail d
  rw [← hd] at hf
  exact (congrArg (fun t => t >>= _) hf).trans rfl

/-- Variables of an interaction have to be given in increasing order: otherwise the code indexes outside of the array of leaves. -/
theorem interaction_order_counterexample (tree : List (SI K)) {a b : Nat} (h : b ≤ a) {l : List Nat} {x : K} {s : Option K} {ls : List (SI K)} (ht : tree[a]? = some (.node a l x s ls)) :
    getInteraction tree [a, b] = .error .oob := by
  rw [getInteraction, rd_of_getElem? ht, bind_ok]
  · cases s <;> rw [getSens, if_pos h]
  · simp

end C3.Prob

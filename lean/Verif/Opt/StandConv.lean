/-
Standalone line search and gradient descent: they succeed on smooth objectives; projected gradient descent does not recognise a constrained minimum;
concrete runs.
-/
import Verif.Opt.StandProps
import Mathlib.Analysis.Calculus.Deriv.Slope
import Mathlib.Analysis.SpecificLimits.Basic
import Mathlib.Analysis.Calculus.Deriv.Inv
import Mathlib.Analysis.Calculus.Deriv.Pow
import Mathlib.Analysis.Real.Sqrt
import Mathlib.Tactic.Positivity
import Mathlib.Tactic.FieldSimp
import Mathlib.Tactic.NormNum

set_option linter.unusedSectionVars false

namespace C3.Opt
open Finset Filter Topology

/-- C113: along a direction of descent of a differentiable objective the line search succeeds, if it is given enough iterations. -/
theorem backtrack_terminates {f : List ℝ → ℝ} {d : Nat} {x p newx grad : List ℝ} (fnx : ℝ) {alpha beta : ℝ} (pts : List (List ℝ))
    (hx : x.length = d) (hp : p.length = d) (hn : newx.length = d) (hg : grad.length = d) (ha : 0 < alpha ∧ alpha < 1 / 2)
    (hb : 0 < beta ∧ beta < 1) (hder : HasDerivAt (fun t => f (freeStep d x p t)) (dot d grad p) 0) (hdesc : dot d grad p < 0)
    (hfx : f (freeStep d x p 0) = f x) :
    ∃ M, ∀ maxiter, M ≤ maxiter → ∃ r, backtrack f d x (f x) p newx fnx grad alpha beta maxiter pts = .ok r ∧ r.info = 0 ∧ r.fnx < f x := by
  have h1 : Tendsto (fun n : ℕ => beta ^ n) atTop (𝓝[>] 0) := by
    refine tendsto_nhdsWithin_iff.mpr ⟨tendsto_pow_atTop_nhds_zero_of_lt_one hb.1.le hb.2, ?_⟩
    exact Eventually.of_forall fun n => pow_pos hb.1 n
  have h2 := hder.tendsto_slope_zero_right.comp h1
  have h3 : dot d grad p < alpha * dot d grad p := by nlinarith [ha.2]
  have h4 := (h2.eventually (gt_mem_nhds h3)).exists
  obtain ⟨j, hj⟩ := h4
  have hdec : Decr f (f x) (dot d grad p) alpha (beta ^ j) (freeStep d x p (beta ^ j)) := by
    have hpos : 0 < beta ^ j := pow_pos hb.1 j
    simp only [Function.comp, zero_add, smul_eq_mul, hfx] at hj
    rw [inv_mul_lt_iff₀ hpos] at hj
    rw [Decr]
    nlinarith
  refine ⟨j + 2, fun maxiter hM => ?_⟩
  obtain ⟨k, r, h5, h6⟩ := backtrack_spec (f := f) (f x) fnx beta maxiter pts hx hp hn hg ha
  have h7 := (h6.succeeds hdec hM).1
  refine ⟨r, h5, h7, ?_⟩
  rcases h6.info with ⟨_, h8⟩ | ⟨h8, _⟩
  · rw [h6.fnx]
    refine lt_of_le_of_lt h8 ?_
    have : 0 < alpha * beta ^ k := mul_pos ha.1 (pow_pos hb.1 k)
    nlinarith
  · omega

/-- The objective lies below its quadratic model along the negative gradient (true for a gradient with Lipschitz constant `L`). -/
def QuadBound (c : Cb ℝ) (d : Nat) (L : ℝ) : Prop :=
  ∀ y, y.length = d → ∀ t, 0 ≤ t → t ≤ 1 →
    c.f (gradStep c d y t) ≤ c.f y - t * dot d (c.g y).2 (c.g y).2 + L / 2 * t ^ 2 * dot d (c.g y).2 (c.g y).2

theorem steps_length {c : Cb ℝ} {p : StPar ℝ} {sq : ℝ → ℝ} {n : Nat} {x y : List ℝ} (h : Steps (GdMove sq c p) n x y) (hx : x.length = p.d) :
    y.length = p.d := by
  cases h with
  | zero => exact hx
  | succ _ h2 =>
    obtain ⟨_, _, k, _, h3, _⟩ := h2
    rw [h3, gradStep, freeStep_length]

theorem quadBound_decr {c : Cb ℝ} {p : StPar ℝ} {L : ℝ} (hL : 0 < L) (ha : 0 < p.alpha) (hb : 0 < p.beta ∧ p.beta < 1)
    (hq : QuadBound c p.d L) {j : Nat} (hj : p.beta ^ j ≤ 2 * (1 - p.alpha) / L) {y : List ℝ} (hy : y.length = p.d) :
    c.f (gradStep c p.d y (p.beta ^ j)) ≤ c.f y - p.alpha * p.beta ^ j * dot p.d (c.g y).2 (c.g y).2 := by
  have h1 := hq y hy (p.beta ^ j) (pow_nonneg hb.1.le j) (pow_le_one₀ hb.1.le hb.2.le)
  have h2 := dot_self_nonneg p.d (c.g y).2
  have h3 : 0 < p.beta ^ j := pow_pos hb.1 j
  rw [le_div_iff₀ hL] at hj
  have h4 : L / 2 * (p.beta ^ j) ^ 2 ≤ (1 - p.alpha) * p.beta ^ j := by nlinarith
  nlinarith [mul_le_mul_of_nonneg_right h4 h2]

theorem steps_decrease {c : Cb ℝ} {p : StPar ℝ} {L : ℝ} (hL : 0 < L) (ha : 0 < p.alpha) (hb : 0 < p.beta ∧ p.beta < 1) (ht : 0 < p.tol)
    (hq : QuadBound c p.d L) {j : Nat} (hj : p.beta ^ j ≤ 2 * (1 - p.alpha) / L) {x y : List ℝ} {n : Nat}
    (h : Steps (GdMove Real.sqrt c p) n x y) (hx : x.length = p.d) : c.f y ≤ c.f x - n * (p.alpha * p.beta ^ j * p.tol ^ 2) := by
  induction h with
  | zero => simp
  | succ h1 h2 ih =>
    rename_i n a b z
    have ih := ih hx
    have hy := steps_length h1 hx
    obtain ⟨_, h3, k, _, _, h4, h5⟩ := h2
    have hkj : k ≤ j := by
      by_contra hc
      exact absurd (quadBound_decr hL ha hb hq hj hy) (not_le.mpr (h5 j (by omega)))
    have h6 : p.beta ^ j ≤ p.beta ^ k := pow_le_pow_of_le_one hb.1.le hb.2.le hkj
    have h7 : p.tol ^ 2 ≤ dot p.d (c.g b).2 (c.g b).2 := by
      have := Real.lt_sqrt ht.le |>.mp h3
      exact this.le
    have h8 : p.alpha * p.beta ^ j * p.tol ^ 2 ≤ p.alpha * p.beta ^ k * dot p.d (c.g b).2 (c.g b).2 :=
      mul_le_mul (mul_le_mul_of_nonneg_left h6 ha.le) h7 (by positivity) (mul_nonneg ha.le (pow_nonneg hb.1.le k))
    push_cast
    linarith

/-- C113: on an objective that is bounded below and lies below its quadratic model, `gradient_descent` with valid parameters, a positive tolerance and large enough
budgets returns 0 at a point with gradient norm at most `tol`. -/
theorem gradientDescent_converges {c : Cb ℝ} {d : Nat} (hc : c.Len d) (hok : ∀ z, (c.g z).1 = 0) {tol alpha beta L m : ℝ} (ht : 0 < tol)
    (ha : 0 < alpha ∧ alpha < 1 / 2) (hb : 0 < beta ∧ beta < 1) (hL : 0 < L) (hq : QuadBound c d L) (hm : ∀ y, m ≤ c.f y) {x : List ℝ}
    (hx : x.length = d) :
    ∃ N M, ∀ maxiter, N ≤ maxiter → ∀ maxsub, M ≤ maxsub → ∀ (fval0 : ℝ) (cur dir : List ℝ), cur.length = d → dir.length = d →
      ∃ r, gradientDescent Real.sqrt c ⟨d, tol, maxiter, maxsub, alpha, beta⟩ x fval0 cur dir = .ok r ∧ r.ret = 0 ∧ c.g r.x = (0, r.grad) ∧
        r.fval = c.f r.x ∧ c.f r.x ≤ c.f x ∧ Real.sqrt (dot d r.grad r.grad) ≤ tol := by
  have hT : 0 < 2 * (1 - alpha) / L := div_pos (by linarith [ha.2]) hL
  obtain ⟨j, hj⟩ := exists_pow_lt_of_lt_one hT hb.2
  have hcst : 0 < alpha * beta ^ j * tol ^ 2 := mul_pos (mul_pos ha.1 (pow_pos hb.1 j)) (by positivity)
  obtain ⟨N, hN⟩ := exists_nat_gt ((c.f x - m) / (alpha * beta ^ j * tol ^ 2))
  rw [div_lt_iff₀ hcst] at hN
  refine ⟨N, j + 2, fun maxiter h1 maxsub h2 fval0 cur dir hcur hdir => ?_⟩
  obtain ⟨r, n, y, e1, e2⟩ := gradientDescent_spec Real.sqrt (p := ⟨d, tol, maxiter, maxsub, alpha, beta⟩) hc ha fval0 hx hcur hdir (hok x)
  have hy := steps_length e2.steps hx
  have hr : r.ret = 0 := by
    rcases e2.code with ⟨h, _⟩ | ⟨_, _, h3, _⟩ | ⟨_, _, h⟩ | ⟨_, k, h3, _, h4⟩
    · exact h
    · exfalso
      have h5 := steps_decrease (p := ⟨d, tol, maxiter, maxsub, alpha, beta⟩) hL ha.1 hb ht hq hj.le e2.steps hx
      have h6 := hm y
      have h7 : (N : ℝ) ≤ n := by exact_mod_cast le_trans h1 h3
      have h8 := mul_le_mul_of_nonneg_right h7 hcst.le
      dsimp only at h5
      linarith
    · exact absurd (hok y) h
    · exfalso
      have h5 := quadBound_decr (p := ⟨d, tol, maxiter, maxsub, alpha, beta⟩) hL ha.1 hb hq hj.le hy
      exact absurd h5 (not_le.mpr (h4 j (by dsimp only at h3; omega)))
  obtain ⟨h3, h4, h5, h6⟩ := e2.success ha.1.le hb.1.le (fun z => by rw [hok z]; decide) hr
  exact ⟨r, e1, hr, h3, h5, h6, h4⟩

/-- A non-trivial instance: `f(x) = x1^2 + x2^2/2`, gradient `(2 x1, x2)`, `L = 2`. -/
noncomputable def exCb : Cb ℝ := ⟨fun x => x.getD 0 0 ^ 2 + x.getD 1 0 ^ 2 / 2, fun x => (0, [2 * x.getD 0 0, x.getD 1 0]), fun _ => (0, [])⟩

example : exCb.Len 2 ∧ (∀ z, (exCb.g z).1 = 0) ∧ QuadBound exCb 2 2 ∧ ∀ y, 0 ≤ exCb.f y := by
  refine ⟨fun _ => rfl, fun _ => rfl, ?_, fun y => ?_⟩
  · intro y _ t _ _
    simp only [exCb, gradStep, freeStep, dot, Finset.sum_range_succ, Finset.sum_range_zero, vneg]
    simp [List.range_succ]
    nlinarith [sq_nonneg (t * y.getD 1 0)]
  · simp only [exCb]; positivity

variable {K : Type} [Field K] [LinearOrder K] [IsStrictOrderedRing K]

theorem Steps.stuck {α : Type} {R : α → α → Prop} {n : Nat} {a b : α} (h : Steps R n a b) : (∀ z, ¬R a z) → n = 0 ∧ b = a := by
  induction h with
  | zero => exact fun _ => ⟨rfl, rfl⟩
  | succ _ h2 ih =>
    intro hno
    rw [(ih hno).2] at h2
    exact absurd h2 (hno _)

/-- C114, what the code does: started at a constrained stationary point of the box (every projected gradient step leads back to it) where the gradient itself is longer than
the tolerance, `box_pg_descent` returns 1 (failure of the line search) for every choice of the iteration limits. -/
theorem boxPg_stationary_actual (sq : K → K) {c : Cb K} {p : StPar K} {lb ub : List K} (hl : lb.length = p.d) (hu : ub.length = p.d) (hc : c.Len p.d)
    (ha : 0 < p.alpha ∧ p.alpha < 1 / 2) (hb : 0 < p.beta) {x cur dir : List K} (fval0 : K) (hx : x.length = p.d) (hin : InBox p.d lb ub x)
    (hcur : cur.length = p.d) (hdir : dir.length = p.d) (hg : (c.g x).1 = 0) (hst : ∀ t, 0 < t → gradProj c p.d lb ub x t = x)
    (hgr : 0 < dot p.d (c.g x).2 (c.g x).2) (hsq : p.tol < sq (dot p.d (c.g x).2 (c.g x).2)) :
    ∃ r, boxPgDescent sq c p lb ub x fval0 cur dir = .ok r ∧ r.ret = 1 ∧ r.x = x := by
  obtain ⟨r, n, y, h1, h2⟩ := boxPgDescent_spec sq hl hu hc ha fval0 hx hin hcur hdir hg
  have hno : ∀ z, ¬Accepted c p (gradProj c p.d lb ub) x z := by
    rintro z ⟨k, _, e1, e2, _⟩
    have hk := pow_pos hb k
    rw [hst _ hk] at e1
    rw [e1] at e2
    have := mul_pos (mul_pos ha.1 hk) hgr
    linarith
  obtain ⟨hn, hy⟩ := h2.steps.stuck hno
  refine ⟨r, h1, ?_⟩
  rcases h2.code with ⟨_, _, h3, h4⟩ | ⟨_, _, _, h3⟩ | ⟨_, _, h3⟩ | ⟨h3, k, _, h4, _⟩
  · exfalso
    rcases h4 with ⟨_, h5⟩ | ⟨w, m, h5, _⟩
    · have : r.grad = (c.g x).2 := by rw [← hy, h3]
      rw [this] at h5
      exact absurd hsq (not_lt.mpr h5)
    · omega
  · omega
  · rw [hy] at h3; exact absurd hg h3
  · rw [hy, hst _ (pow_pos hb k)] at h4
    exact ⟨h3, h4⟩

/-- `f(x) = x` on `[0,1]`: the minimum is at 0, where the gradient is 1. -/
def exLin : Cb ℚ := ⟨fun x => x.getD 0 0, fun _ => (0, [1]), fun _ => (0, [0])⟩

/-- C114, the property fails: minimizing `f(x) = x` over `[0,1]`, from 1/2 the method reaches the minimum 0 in one step and then reports code 1, whatever the limits (here 100 and 100). -/
theorem boxPg_linear_counterexample :
    (boxPgDescent (fun s => s) exLin ⟨1, 1 / 100, 100, 100, 1 / 4, 1 / 2⟩ [0] [1] [1 / 2] 0 [0] [0]).map (fun r => (r.x, r.fval, r.ret)) =
      .ok ([0], 0, 1) := by decide +kernel

example : (∀ t : ℚ, 0 < t → gradProj exLin 1 [0] [1] [0] t = [0]) ∧ 0 < dot 1 (exLin.g [0]).2 (exLin.g [0]).2 := by
  refine ⟨fun t ht => ?_, by decide +kernel⟩
  simp [gradProj, projStep, exLin, vneg, List.range_succ]
  exact Or.inl ht.le

/-- `f(x) = x^2`, whose gradient callback fails with code 20 away from the start. -/
def exFail : Cb ℚ := ⟨fun x => x.getD 0 0 ^ 2, fun x => if x.getD 0 0 = 1 then (0, [2]) else (20, [0]), fun _ => (0, [2])⟩

/-- C113, the property fails: the codes `-20+?` of a failing gradient overlap with success; a gradient that fails with code 20 gives return value 0. -/
theorem gradientDescent_code_counterexample :
    (gradientDescent (fun s => s) exFail ⟨1, 1 / 100, 10, 10, 1 / 4, 1 / 2⟩ [1] 0 [0] [0]).map (fun r => (r.x, r.ret)) = .ok ([0], 0) ∧
    (exFail.g [0]).1 = 20 := by decide +kernel

/-- `f(x) = x^4`. -/
def exQuart : Cb ℚ := ⟨fun x => x.getD 0 0 ^ 4, fun x => (0, [4 * x.getD 0 0 ^ 3]), fun _ => (0, [0])⟩

/-- C113, the property fails: when the maximum number of iterations is reached, the gradient left behind belongs to the previous point, not to the final one. -/
theorem gradientDescent_maxiter_counterexample :
    (gradientDescent (fun s => s) exQuart ⟨1, 1 / 100, 1, 10, 1 / 4, 1 / 2⟩ [1] 0 [0] [0]).map (fun r => (r.x, r.grad, r.ret)) = .ok ([0], [4], 1) ∧
    (exQuart.g [0]).2 = [0] := by decide +kernel

/-- C113, the property fails: when the line search gives up, the final point can be worse than the starting point (the last trial point is kept). -/
theorem gradientDescent_worse_counterexample :
    (gradientDescent (fun s => s) exQuart ⟨1, 1 / 100, 10, 2, 1 / 4, 1 / 2⟩ [1] 0 [0] [0]).map (fun r => (r.x, r.fval, r.ret)) =
      .ok ([-3], 81, 1) ∧ exQuart.f [1] = 1 := by decide +kernel

/-- C113, the property fails: a `beta` outside (0,1) is not rejected (the test is written with `&&`): code -2 is never reported. -/
theorem backtrack_beta_counterexample {f : List K → K} {d : Nat} {x p newx grad : List K} (fx fnx alpha beta : K) (maxiter : Nat)
    (pts : List (List K)) (hx : x.length = d) (hp : p.length = d) (hn : newx.length = d) (hg : grad.length = d) :
    ∃ r, backtrack f d x fx p newx fnx grad alpha beta maxiter pts = .ok r ∧ r.info ≠ -2 := by
  by_cases ha : 0 < alpha ∧ alpha < 1 / 2
  · obtain ⟨k, r, h1, h2⟩ := backtrack_spec (f := f) fx fnx beta maxiter pts hx hp hn hg ha
    refine ⟨r, h1, ?_⟩
    rcases h2.info with ⟨h, _⟩ | ⟨h, _⟩ <;> rw [h] <;> decide
  · exact ⟨_, backtrack_rejects fx fnx beta maxiter pts ha, by simp⟩

/-- C113, the property fails: the box version returns `alpha` times the scaling of the direction that it used: the first step (scaling 1) is accepted, 1/4 is returned. -/
theorem backtrackBc_scaling_counterexample :
    (backtrackBc exLin.f 1 [0] [1] [1] 1 [-1] [0] 0 [1] (1 / 4) (1 / 2) 10 []).map (fun r => (r.newx, r.ret, r.info)) = .ok ([0], 1 / 4, 0) := by
  decide +kernel

end C3.Opt

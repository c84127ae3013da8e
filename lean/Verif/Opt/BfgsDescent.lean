/-
Consequences for runs of the BFGS optimizer: secant equation, positive definite matrices while the iterates stay inside the box, descent.
-/
import Verif.Opt.BfgsProps

set_option linter.unusedSectionVars false

namespace C3.Opt
open Finset

variable {K : Type} [Field K] [LinearOrder K] [IsStrictOrderedRing K]

/-- C83: after every iteration with `|s'y| > 1e-16` the matrix maps the change of gradient to the step taken. -/
theorem bmoved_secant {o : Obj K} {p : Par K} {i : Int} {a b : List K × List K} (h : BMoved o p i a b)
    (hc : 1 / 10 ^ 16 < |ip p.d (vdiff a.1 b.1) (vdiff (o.g a.1) (o.g b.1))|) :
    ∀ k < p.d, mulv p.d (Hm p.d b.2) (vdiff (o.g a.1) (o.g b.1)) k = b.1.getD k 0 - a.1.getD k 0 := by
  intro k hk
  have hne : ip p.d (vdiff a.1 b.1) (vdiff (o.g a.1) (o.g b.1)) ≠ 0 := by
    intro h0
    rw [h0, abs_zero] at hc
    have : (0 : K) < 1 / 10 ^ 16 := by positivity
    exact absurd hc (not_lt.mpr this.le)
  rw [mulv_congr (i := k) (fun j hj => h.update hc k hk j hj) (fun _ _ => rfl)]
  exact bfgs_secant _ hne k

theorem projStep_inside {d : Nat} {lb ub x dir : List K} {t : K} (h : Inside d lb ub (projStep d lb ub x dir t)) :
    ∀ i < d, (projStep d lb ub x dir t).getD i 0 = x.getD i 0 + t * dir.getD i 0 := by
  intro i hi
  have := h i hi
  rw [projStep_getD _ _ _ _ _ hi] at this ⊢
  rcases le_total (lb.getD i 0) (min (x.getD i 0 + t * dir.getD i 0) (ub.getD i 0)) with e | e
  · rw [max_eq_right e] at this ⊢
    rcases le_total (x.getD i 0 + t * dir.getD i 0) (ub.getD i 0) with e' | e'
    · exact min_eq_left e'
    · rw [min_eq_right e'] at this; exact absurd this.2 (lt_irrefl _)
  · rw [max_eq_left e] at this; exact absurd this.1 (lt_irrefl _)

theorem dot_qn (d : Nat) (h g : List K) : dot d g (qn d h g) = -ip d (gv g) (mulv d (Hm d h) (gv g)) := by
  rw [dot_ip, ip_congr (u := gv g) (u' := gv g) (fun _ _ => rfl) (fun i hi => gv_qn h g hi), ip, ip, ← sum_neg_distrib]
  exact sum_congr rfl fun _ _ => by ring

/-- With a positive definite matrix the quasi-Newton direction is one of descent. -/
theorem qn_descent {d : Nat} {h g : List K} (hp : PosDef d (Hm d h)) :
    dot d g (qn d h g) ≤ 0 ∧ ((∃ i < d, g.getD i 0 ≠ 0) → dot d g (qn d h g) < 0) := by
  rw [dot_qn]
  by_cases hg : ∃ i < d, g.getD i 0 ≠ 0
  · have := hp (gv g) hg
    exact ⟨by linarith, fun _ => by linarith⟩
  · refine ⟨?_, fun h => absurd h hg⟩
    push Not at hg
    rw [ip, sum_eq_zero, neg_zero]
    intro i hi
    rw [gv, hg i (mem_range.mp hi), zero_mul]

/-- C83: as long as the line search succeeds and the new point is strictly inside the box, a positive definite matrix stays so, the
direction used was `-H*g`, and the objective does not increase. -/
theorem bmoved_posDef {o : Obj K} {p : Par K} (halg : p.alg = .weakwolfe) (ha : 0 < p.alpha) (hb : p.beta ≤ 1) {a b : List K × List K}
    (h : BMoved o p 0 a b) (hin : Inside p.d p.lb p.ub b.1) (hp : PosDef p.d (Hm p.d a.2)) :
    PosDef p.d (Hm p.d b.2) ∧ o.f b.1 ≤ o.f a.1 ∧
      ∃ t, 0 < t ∧ (∀ i < p.d, b.1.getD i 0 = a.1.getD i 0 + t * (qn p.d a.2 (o.g a.1)).getD i 0) ∧
        o.f b.1 ≤ o.f a.1 + p.alpha * t * dot p.d (o.g a.1) (qn p.d a.2 (o.g a.1)) := by
  obtain ⟨dir, t, hd, hw, _⟩ := h.wolfe halg rfl
  have hdesc := qn_descent (g := o.g a.1) hp
  have hdir : dir = qn p.d a.2 (o.g a.1) := by
    rcases hd with hd | ⟨hd, _⟩
    · exact hd
    · have : (0 : K) < 1 / 10 ^ 15 := by positivity
      linarith [hdesc.1]
  rw [hdir] at hw
  have hst : ∀ i < p.d, b.1.getD i 0 = a.1.getD i 0 + t * (qn p.d a.2 (o.g a.1)).getD i 0 := by
    intro i hi
    have e := hw.step
    rw [e] at hin ⊢
    exact projStep_inside hin i hi
  have hneg : p.alpha * t * dot p.d (o.g a.1) (qn p.d a.2 (o.g a.1)) ≤ 0 :=
    mul_nonpos_of_nonneg_of_nonpos (mul_pos ha hw.pos).le hdesc.1
  refine ⟨?_, by linarith [hw.armijo], t, hw.pos, hst, hw.armijo⟩
  have hsty : 0 ≤ ip p.d (vdiff a.1 b.1) (vdiff (o.g a.1) (o.g b.1)) := by
    have e1 : ip p.d (vdiff a.1 b.1) (vdiff (o.g a.1) (o.g b.1)) =
        t * (dot p.d (o.g b.1) (qn p.d a.2 (o.g a.1)) - dot p.d (o.g a.1) (qn p.d a.2 (o.g a.1))) := by
      rw [dot, dot, ← sum_sub_distrib, mul_sum, ip]
      refine sum_congr rfl fun i hi => ?_
      rw [vdiff, vdiff, hst i (mem_range.mp hi)]; ring
    rw [e1]
    refine mul_nonneg hw.pos.le ?_
    have h1 := hw.slope
    have h2 : dot p.d (o.g a.1) (qn p.d a.2 (o.g a.1)) ≤ p.beta * dot p.d (o.g a.1) (qn p.d a.2 (o.g a.1)) := by
      nlinarith [hdesc.1]
    linarith
  by_cases hc : 1 / 10 ^ 16 < |ip p.d (vdiff a.1 b.1) (vdiff (o.g a.1) (o.g b.1))|
  · have hpos : 0 < ip p.d (vdiff a.1 b.1) (vdiff (o.g a.1) (o.g b.1)) := by
      rw [abs_of_nonneg hsty] at hc
      have : (0 : K) < 1 / 10 ^ 16 := by positivity
      linarith
    have key := bfgs_posDef (Hm_symm p.d a.2) hp hpos
    intro v hv
    have := key v hv
    rw [ip_congr (fun _ _ => rfl) (fun i hi => mulv_congr (i := i) (fun j hj => h.update hc i hi j hj) (fun _ _ => rfl))]
    exact this
  · rw [h.keep (not_lt.mp hc)]; exact hp

/-- C83: along a run whose searches succeed and whose iterates stay strictly inside the box, all matrices are positive definite and the
objective decreases monotonically. -/
theorem run_posDef {o : Obj K} {p : Par K} (halg : p.alg = .weakwolfe) (ha : 0 < p.alpha) (hb : p.beta ≤ 1) {a b : List K × List K}
    {is : List Int} (hr : Run (fun i a b => BMoved o p i a b ∧ i = 0 ∧ Inside p.d p.lb p.ub b.1) a is b) (hp : PosDef p.d (Hm p.d a.2)) :
    PosDef p.d (Hm p.d b.2) ∧ o.f b.1 ≤ o.f a.1 := by
  induction hr with
  | nil => exact ⟨hp, le_refl _⟩
  | step h s ih =>
    obtain ⟨s1, s2, s3⟩ := s
    rw [s2] at s1
    obtain ⟨h1, h2, _⟩ := bmoved_posDef halg ha hb s1 s3 ih.1
    exact ⟨h1, le_trans h2 ih.2⟩

theorem idm_length (d : Nat) : ∃ h : List K, forN d (fun ii b => wr b (ii * d + ii) 1) (List.replicate (d * d) 0) = .ok h ∧ h.length = d * d ∧
    ∀ i < d, ∀ j < d, Hm d h i j = if i = j then 1 else 0 := by
  have hlt : ∀ i < d, i * d + i < d * d := by
    intro i hi
    have := Nat.mul_le_mul_right d (show i + 1 ≤ d from hi)
    rw [Nat.add_mul, Nat.one_mul] at this
    omega
  obtain ⟨h, h1, h2, h3⟩ := forN_spec (n := d) (body := fun ii b => wr b (ii * d + ii) (1 : K)) (s := List.replicate (d * d) 0)
    (I := fun J b => b.length = d * d ∧ ∀ i < d, ∀ j < d, b.getD (i + j * d) 0 = if i = j ∧ i < J then 1 else 0)
    ⟨by simp, fun i hi j hj => by
      rw [List.getD_eq_getElem?_getD, List.getElem?_replicate]
      split <;> simp⟩ (by
      intro J hJ b ⟨hl, hv⟩
      rw [wr_ok _ (by rw [hl]; exact hlt J hJ)]
      refine ⟨_, rfl, by simpa using hl, fun i hi j hj => ?_⟩
      by_cases e : i = J ∧ j = J
      · obtain ⟨rfl, rfl⟩ := e
        rw [if_pos ⟨rfl, by omega⟩, List.getD_eq_getElem?_getD, Nat.add_comm j (j * d), List.getElem?_set_self (by rw [hl]; exact hlt j hj)]; rfl
      · have hne : J * d + J ≠ i + j * d := by
          intro h
          have := row_inj (n := d) (i := J) (i' := j) (j := J) (j' := i) (by omega) hi (by omega)
          omega
        rw [List.getD_eq_getElem?_getD, List.getElem?_set_ne hne, ← List.getD_eq_getElem?_getD, hv i hi j hj]
        have : (i = j ∧ i < J) ↔ (i = j ∧ i < J + 1) := by omega
        simp only [this])
  refine ⟨h, h1, h2, fun i hi j hj => ?_⟩
  rw [Hm, up, h3 _ (by omega) _ (by omega)]
  have : (min i j = max i j ∧ min i j < d) ↔ i = j := by omega
  simp only [this]

/-- C83: `c3opt_minimize` starts BFGS from the identity, which is positive definite: the first direction is the negative gradient. -/
theorem minBfgs_start (sq : K → K) (zf : Nat) (o : Obj K) (p : Par K) (x cur dir w2 w3 : List K) :
    ∃ h, minBfgs sq zf o p x cur dir w2 w3 = optBfgs sq zf o p x h cur dir w2 w3 ∧ h.length = p.d * p.d ∧ PosDef p.d (Hm p.d h) ∧
      ∀ g : List K, g.length = p.d → qn p.d h g = vneg g := by
  obtain ⟨h, h1, h2, h3⟩ := idm_length (K := K) p.d
  have hm : ∀ v : Nat → K, ∀ i < p.d, mulv p.d (Hm p.d h) v i = v i := by
    intro v i hi
    rw [mulv, sum_eq_single i]
    · rw [h3 i hi i hi, if_pos rfl, one_mul]
    · intro j hj hne
      rw [h3 i hi j (mem_range.mp hj), if_neg (Ne.symm hne), zero_mul]
    · intro hne
      exact absurd (mem_range.mpr hi) hne
  refine ⟨h, by rw [minBfgs, h1, bind_ok], h2, ?_, ?_⟩
  · rintro v ⟨i, hi, hv⟩
    rw [ip_congr (u := v) (u' := v) (fun _ _ => rfl) (fun i hi => hm v i hi)]
    refine lt_of_lt_of_le (mul_self_pos.mpr hv) ?_
    exact single_le_sum (f := fun i => v i * v i) (fun _ _ => mul_self_nonneg _) (mem_range.mpr hi)
  · intro g hg
    apply List.ext_getElem
    · simp [qn, hg]
    · intro i h1 h2
      have hi : i < p.d := by simpa [qn] using h1
      simp only [qn, List.getElem_map, List.getElem_range]
      rw [hm _ i hi, gv]
      have : i < g.length := by omega
      simp [this]

/-- Two variables, box `[-3,3] x [-3,0]`. -/
def exPar2 : Par ℚ := ⟨2, [-3, -3], [3, 0], .weakwolfe, 3 / 10, 9 / 10, 500, 0, 1 / 10 ^ 8, 1 / 10 ^ 8, 1 / 10 ^ 12⟩

/-- The saddle `-x²/2 + 2xy - x - y`. -/
def exSaddle : Obj ℚ := ⟨fun x => -x.getD 0 0 ^ 2 / 2 + 2 * x.getD 0 0 * x.getD 1 0 - x.getD 0 0 - x.getD 1 0,
  fun x => [-x.getD 0 0 + 2 * x.getD 1 0 - 1, 2 * x.getD 0 0 - 1]⟩

/-- C83: on the boundary of the box the matrix does not stay positive definite, although the line search has succeeded: the update is
skipped only if `|s'y|` is tiny, not if `s'y` is negative (the step is projected, and the slope condition is about the unprojected
direction). From (0,0), on the upper bound of the second variable, one iteration gives the indefinite matrix [[3,2],[2,1]]. -/
theorem bfgs_box_counterexample : ∃ r, minBfgs (fun s => s) 0 exSaddle exPar2 [0, 0] [0, 0] [0, 0] [0, 0] [0, 0] = .ok r ∧
    r.infos = [0] ∧ r.h = [3, 0, 2, 1] ∧ ¬ PosDef 2 (Hm 2 r.h) := by
  refine ⟨⟨[1, 0], -3 / 2, [-2, 1], [3, 0, 2, 1], .maxiter, 2, ⟨3, 2, [[1, 0], [1, 0], [0, 0]]⟩, [0]⟩, by decide +kernel, rfl, rfl, ?_⟩
  intro h
  have := h (fun i => if i = 0 then -1 else 2) ⟨0, by decide, by norm_num⟩
  revert this
  simp [ip, mulv, Finset.sum_range_succ, Hm, up]
  norm_num

/-- C83: the iteration limit is exceeded by one: with `maxiter = 0` one iteration is done (and its result reported as
`C3OPT_MAXITER_REACHED` even if a tolerance was met, here with gradient 0). -/
theorem bfgs_maxiter_actual :
    minBfgs (fun s => s) 0 exObj { exPar with maxiter := 0 } [0] [0] [0] [0] [0] =
      .ok ⟨[1], -1, [0], [1 / 2], .maxiter, 2, ⟨4, 2, [[1], [1], [2], [0]]⟩, [0]⟩ := by decide +kernel

/-- C83: an infeasible start ends the program (weak Wolfe search, the default). -/
theorem bfgs_infeasible_actual : minBfgs (fun s => s) 0 exObj exPar [5] [0] [0] [0] [0] = .error .exit := by decide +kernel

/-- C83: with the strong Wolfe search a direction that is not one of descent (here from the matrix -1 given by the caller of
`c3_opt_damp_bfgs`) is reported as convergence of the function values at the start. -/
theorem bfgs_strong_counterexample :
    optBfgs (fun s => s) 68 exObj { exPar with alg := .strongwolfe } [0] [-1] [0] [0] [0] [0] =
      .ok ⟨[0], 0, [-2], [-1], .ftol, 2, ⟨1, 1, [[0]]⟩, [-4]⟩ := by decide +kernel

/-- The hypotheses of `optBfgs_spec`, `bmoved_posDef`: the parabola is solved in one iteration, the matrix becomes the inverse of the
second derivative 2. -/
example : exPar.WF ∧ exObj.Len exPar.d ∧ 2 ≤ exPar.lsmax ∧ InBox exPar.d exPar.lb exPar.ub [0] ∧
    minBfgs (fun s => s) 0 exObj exPar [0] [0] [0] [0] [0] =
      .ok ⟨[1], -1, [0], [1 / 2], .gtol, 2, ⟨4, 2, [[1], [1], [2], [0]]⟩, [0]⟩ :=
  ⟨exPar_wf, exObj_len, by decide, fun i hi => by
    have : i = 0 := by simp only [exPar] at hi; omega
    subst this; decide +kernel, by decide +kernel⟩

end C3.Opt

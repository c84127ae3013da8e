/-
The backtracking line search with projection onto the box (c3opt_ls_box).
-/
import Verif.Opt.WolfeProps

set_option linter.unusedSectionVars false

namespace C3.Opt
open Finset

variable {K : Type} [Field K] [LinearOrder K] [IsStrictOrderedRing K]

theorem lsBoxLoop_spec (sq : K → K) {o : Obj K} {p : Par K} (hp : p.WF) {x dir : List K} (hx : x.length = p.d)
    (hdir : dir.length = p.d) (fx dg : K) : ∀ fuel iter k tr, 1 ≤ fuel → p.lsmax < iter + fuel →
    ∃ (j : Nat) (info : Int) (tr' : Tr K),
      lsBoxLoop sq o p x dir fx dg fuel iter (p.beta ^ k) (fx + p.alpha * p.beta ^ k * dg) (projStep p.d p.lb p.ub x dir (p.beta ^ k))
        (o.f (projStep p.d p.lb p.ub x dir (p.beta ^ k))) tr =
        .ok (p.beta ^ j, projStep p.d p.lb p.ub x dir (p.beta ^ j), o.f (projStep p.d p.lb p.ub x dir (p.beta ^ j)), info, tr') ∧
      Tr.Ext (InBox p.d p.lb p.ub) (p.lsmax - iter) tr tr' ∧
      ((info = 0 ∧ o.f (projStep p.d p.lb p.ub x dir (p.beta ^ j)) ≤ fx + p.alpha * p.beta ^ j * dg) ∨
       (info = 0 ∧ sq (dist2 p.d (projStep p.d p.lb p.ub x dir (p.beta ^ j)) x) < p.absxtol) ∨
       (info = 1 ∧ tr.nev + (p.lsmax - iter) ≤ tr'.nev ∧
          fx + p.alpha * p.beta ^ j * dg < o.f (projStep p.d p.lb p.ub x dir (p.beta ^ j)))) := by
  intro fuel
  induction fuel with
  | zero => intro iter k tr h; omega
  | succ fuel ih =>
    intro iter k tr _ h
    rw [lsBoxLoop]
    split
    · next hgt =>
      split
      · next hit => exact ⟨k, 1, tr, rfl, Tr.Ext.refl _ _ _, Or.inr (Or.inr ⟨rfl, by omega, hgt⟩)⟩
      · next hit =>
        obtain ⟨k', hk⟩ : ∃ k', (if iter > 1 then p.beta * p.beta ^ k else p.beta ^ k) = p.beta ^ k' := by
          split
          · exact ⟨k + 1, (pow_succ' _ _).symm⟩
          · exact ⟨k, rfl⟩
        dsimp only
        rw [hk, xMove_ok _ hdir hx (projStep_length _ _ _ _ _ _) hp.lb hp.ub hp.le, bind_ok,
          norm2diff_ok sq (projStep_length _ _ _ _ _ _) hx, bind_ok]
        have hin : InBox p.d p.lb p.ub (projStep p.d p.lb p.ub x dir (p.beta ^ k')) := projStep_inBox _ _ _ hp.le
        have e1 := tr.ev_ext hin
        split
        · next hs => exact ⟨k', 0, _, rfl, e1.mono (by omega), Or.inr (Or.inl ⟨rfl, hs⟩)⟩
        · obtain ⟨j, info, tr', h1, h2, h3⟩ := ih (iter + 1) k' (tr.ev (projStep p.d p.lb p.ub x dir (p.beta ^ k'))) (by omega) (by omega)
          refine ⟨j, info, tr', h1, e1.trans h2 (by omega), ?_⟩
          rcases h3 with a | a | ⟨a, b, c⟩
          · exact Or.inl a
          · exact Or.inr (Or.inl a)
          · exact Or.inr (Or.inr ⟨a, by simp only [Tr.ev] at b; omega, c⟩)
    · next hle => exact ⟨k, 0, tr, rfl, Tr.Ext.refl _ _ _, Or.inl ⟨rfl, not_lt.mp hle⟩⟩

/-- C80: the backtracking line search never fails, evaluates the objective at most `maxiter + 1` times and only inside the box, leaves the
gradient alone, and ends in exactly one of the documented ways. With `info = 0` either the decrease is sufficient or the step has become
shorter than the tolerance on `x`. -/
theorem lsBox_spec (sq : K → K) {o : Obj K} {p : Par K} (hp : p.WF) {x grad dir newx : List K} (hx : x.length = p.d)
    (hgrad : grad.length = p.d) (hdir : dir.length = p.d) (hn : newx.length = p.d) (fx newf : K) (tr : Tr K) :
    ∃ r, lsBox sq o p x fx grad dir newx newf tr = .ok r ∧ Tr.Ext (InBox p.d p.lb p.ub) (p.lsmax + 1) tr r.tr ∧ r.grad = grad ∧
      ((¬ (0 < p.alpha ∧ p.alpha < 1 / 2) ∧ r = ⟨0, newx, newf, grad, -1, tr⟩) ∨
       ((0 < p.alpha ∧ p.alpha < 1 / 2) ∧ ¬ InBox p.d p.lb p.ub x ∧ r = ⟨0, newx, newf, grad, -3, tr⟩) ∨
       ((0 < p.alpha ∧ p.alpha < 1 / 2) ∧ InBox p.d p.lb p.ub x ∧ ∃ k : Nat, r.ret = p.beta ^ k * p.alpha ∧
         r.newx = projStep p.d p.lb p.ub x dir (p.beta ^ k) ∧ r.newf = o.f r.newx ∧
         ((r.info = 0 ∧ r.newf ≤ fx + p.alpha * p.beta ^ k * dot p.d grad dir) ∨
          (r.info = 0 ∧ sq (dist2 p.d r.newx x) < p.absxtol) ∨
          (r.info = 1 ∧ tr.nev + p.lsmax ≤ r.tr.nev ∧ fx + p.alpha * p.beta ^ k * dot p.d grad dir < r.newf)))) := by
  rw [lsBox]
  cases hb : badPar p.alpha p.beta with
  | some e =>
    obtain ⟨he, hne⟩ := badPar_some hb
    exact ⟨_, rfl, Tr.Ext.refl _ _ _, rfl, Or.inl ⟨hne, by rw [he]⟩⟩
  | none =>
    have ha := badPar_none.mp hb
    dsimp only
    classical
    rw [violates_ok hx hp.lb hp.ub, bind_ok]
    by_cases hbox : InBox p.d p.lb p.ub x
    · rw [if_neg (by simpa using hbox), dot_ok hgrad hdir, bind_ok, xMove_ok 1 hdir hx hn hp.lb hp.ub hp.le, bind_ok]
      have hin : InBox p.d p.lb p.ub (projStep p.d p.lb p.ub x dir 1) := projStep_inBox _ _ _ hp.le
      obtain ⟨j, info, tr', h1, h2, h3⟩ := lsBoxLoop_spec (o := o) sq hp hx hdir fx (dot p.d grad dir) (p.lsmax + 1) 1 0
        (tr.ev (projStep p.d p.lb p.ub x dir 1)) (by omega) (by omega)
      rw [pow_zero] at h1
      rw [h1, bind_ok]
      refine ⟨_, rfl, (tr.ev_ext hin).trans h2 (by omega), rfl, Or.inr (Or.inr ⟨ha, hbox, j, rfl, rfl, rfl, ?_⟩)⟩
      rcases h3 with a | a | ⟨a, b, c⟩
      · exact Or.inl a
      · exact Or.inr (Or.inl a)
      · exact Or.inr (Or.inr ⟨a, by simp only [Tr.ev] at b ⊢; omega, c⟩)
    · rw [if_pos (by simpa using hbox)]
      exact ⟨_, rfl, Tr.Ext.refl _ _ _, rfl, Or.inr (Or.inl ⟨ha, hbox, rfl⟩)⟩

/-- The full step is tried first and taken if the decrease is sufficient. -/
theorem lsBox_unit (sq : K → K) {o : Obj K} {p : Par K} (hp : p.WF) {x grad dir newx : List K} (hx : x.length = p.d)
    (hgrad : grad.length = p.d) (hdir : dir.length = p.d) (hn : newx.length = p.d) (fx newf : K) (tr : Tr K)
    (ha : 0 < p.alpha ∧ p.alpha < 1 / 2) (hbox : InBox p.d p.lb p.ub x)
    (h1 : o.f (projStep p.d p.lb p.ub x dir 1) ≤ fx + p.alpha * 1 * dot p.d grad dir) :
    ∃ tr', lsBox sq o p x fx grad dir newx newf tr = .ok ⟨p.alpha, projStep p.d p.lb p.ub x dir 1,
      o.f (projStep p.d p.lb p.ub x dir 1), grad, 0, tr'⟩ := by
  refine ⟨tr.ev (projStep p.d p.lb p.ub x dir 1), ?_⟩
  rw [lsBox, badPar_none.mpr ha]
  dsimp only
  classical
  rw [violates_ok hx hp.lb hp.ub, bind_ok, if_neg (by simpa using hbox), dot_ok hgrad hdir, bind_ok,
    xMove_ok 1 hdir hx hn hp.lb hp.ub hp.le, bind_ok, lsBoxLoop, if_neg (not_lt.mpr h1), pure_eq_ok, bind_ok, one_mul]
  rfl

/-- Success (`info = 0`) does not mean sufficient decrease: along a direction of ascent (from a wrong gradient or a kink) the search stops as soon as the step is shorter than `absxtol`, with a larger value of the objective than at the start. Here the
objective is `|x|`, started at 0 with the slope -1 reported along the direction 1, the squared tolerance is 3/4, and the point returned is 81/100. -/
theorem lsBox_tol_counterexample : ∃ (o : Obj ℚ) (p : Par ℚ) (r : Ls ℚ), p.WF ∧ (0 < p.alpha ∧ p.alpha < 1 / 2) ∧
    InBox p.d p.lb p.ub [0] ∧ lsBox (fun s => s) o p [0] (o.f [0]) [-1] [1] [0] 0 ⟨0, 0, []⟩ = .ok r ∧ r.info = 0 ∧ o.f [0] < r.newf := by
  refine ⟨⟨fun x => |x.getD 0 0|, fun _ => [-1]⟩, ⟨1, [-3], [3], .backtrack, 2 / 5, 9 / 10, 500, 50000, 3 / 4, 1, 1⟩,
    ⟨81 / 100 * (2 / 5), [81 / 100], 81 / 100, [-1], 0, ⟨4, 0, [[81 / 100], [9 / 10], [1], [1]]⟩⟩,
    ⟨rfl, rfl, ?_⟩, by decide +kernel, ?_, by decide +kernel, rfl, by decide +kernel⟩
  · intro i hi
    have : i = 0 := by simpa using hi
    subst this; decide +kernel
  · intro i hi
    have : i = 0 := by simpa using hi
    subst this; decide +kernel

/-- The hypotheses of `lsBox_spec` and `lsBox_unit` for the parabola. -/
example : exPar.WF ∧ InBox exPar.d exPar.lb exPar.ub [0] ∧ (0 < exPar.alpha ∧ exPar.alpha < 1 / 2) ∧
    exObj.f (projStep exPar.d exPar.lb exPar.ub [0] [1] 1) ≤ exObj.f [0] + exPar.alpha * 1 * dot exPar.d (exObj.g [0]) [1] :=
  ⟨exPar_wf, fun i hi => by
    have : i = 0 := by simp only [exPar] at hi; omega
    subst this; decide +kernel, by decide +kernel, by decide +kernel⟩

end C3.Opt

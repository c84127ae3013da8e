/-
The bisection line search for the weak Wolfe conditions (c3opt_ls_wolfe_bisect).
-/
import Verif.Opt.Lemmas
import Mathlib.Tactic.Positivity
import Mathlib.Tactic.NormNum

set_option linter.unusedSectionVars false

namespace C3.Opt
open Finset

variable {K : Type} [Field K] [LinearOrder K] [IsStrictOrderedRing K]

/-- The objective writes gradients with `d` entries. -/
def Obj.Len (o : Obj K) (d : Nat) : Prop := ∀ y, (o.g y).length = d

/-- Specification of an accepted weak Wolfe step of length `t`: the new point is the projected step, value and gradient belong to it,
the decrease is sufficient and the slope has increased enough. -/
structure WeakWolfe (o : Obj K) (p : Par K) (x dir : List K) (fx dg t : K) (newx : List K) (newf : K) (grad : List K) : Prop where
  pos : 0 < t
  step : newx = projStep p.d p.lb p.ub x dir t
  val : newf = o.f newx
  gradient : grad = o.g newx
  armijo : newf ≤ fx + p.alpha * t * dg
  slope : p.beta * dg ≤ dot p.d grad dir

theorem wolfeLoop_spec {o : Obj K} {p : Par K} (hp : p.WF) (ho : o.Len p.d) {x dir : List K} (hx : x.length = p.d)
    (hdir : dir.length = p.d) (fx dg : K) : ∀ fuel (s : Wst K), 1 ≤ fuel → p.lsmax < s.iter + fuel → 0 < s.t → 0 ≤ s.tmin → 0 ≤ s.tmax →
    s.newx.length = p.d →
    ∃ s', wolfeLoop o p x dir fx dg fuel s = .ok s' ∧ Tr.Ext (InBox p.d p.lb p.ub) (2 * (p.lsmax - s.iter)) s.tr s'.tr ∧
      ((s'.iter < p.lsmax ∧ s.iter ≤ s'.iter ∧ WeakWolfe o p x dir fx dg s'.t s'.newx s'.newf s'.grad) ∨
       (s.iter < p.lsmax ∧ s'.iter = p.lsmax ∧ s.tr.nev + (p.lsmax - s.iter) ≤ s'.tr.nev ∧
         ∃ t, 0 < t ∧ s'.newx = projStep p.d p.lb p.ub x dir t) ∨
       (p.lsmax ≤ s.iter ∧ s' = s)) := by
  intro fuel
  induction fuel with
  | zero => intro s h0; omega
  | succ fuel ih =>
    intro s _ h ht hmin hmax hn
    rw [wolfeLoop]
    by_cases hc : s.iter < p.lsmax
    · rw [if_pos hc]
      have hm := xMove_ok s.t hdir hx hn hp.lb hp.ub hp.le
      have hbox : InBox p.d p.lb p.ub (projStep p.d p.lb p.ub x dir s.t) := projStep_inBox _ _ _ hp.le
      rw [hm, bind_ok]
      dsimp only
      have e1 := s.tr.ev_ext hbox
      split
      · next hf =>
        obtain ⟨s', h1, h2, h3⟩ := ih ⟨s.iter + 1, 1 / 2 * (s.tmin + s.t), s.tmin, s.t,
            projStep p.d p.lb p.ub x dir s.t, s.newf, s.grad, s.tr.ev (projStep p.d p.lb p.ub x dir s.t)⟩
          (by omega) (by simp only; omega) (by simp only; linarith) hmin ht.le (projStep_length _ _ _ _ _ _)
        refine ⟨s', h1, e1.trans h2 (by simp only; omega), ?_⟩
        rcases h3 with ⟨a, b, c⟩ | ⟨a, b, c⟩ | ⟨a, b⟩
        · exact Or.inl ⟨a, by simp only at b; omega, c⟩
        · exact Or.inr (Or.inl ⟨hc, b, by simp only [Tr.ev] at c; omega, c.2⟩)
        · refine Or.inr (Or.inl ⟨hc, ?_, ?_, s.t, ht, by rw [b]⟩)
          · rw [b]; simp only at a ⊢; omega
          · rw [b]; simp only [Tr.ev] at a ⊢; omega
      · next hf =>
        rw [dot_ok (ho _) hdir, bind_ok]
        have e2 := (s.tr.ev (projStep p.d p.lb p.ub x dir s.t)).evg_ext hbox
        have e3 := e1.trans e2 (le_refl 2)
        split
        · next hs =>
          obtain ⟨s', h1, h2, h3⟩ := ih ⟨s.iter + 1,
              if |s.tmax| < 1 / 10 ^ 15 then 2 * s.t else 1 / 2 * (s.t + s.tmax), s.t, s.tmax,
              projStep p.d p.lb p.ub x dir s.t, s.newf, o.g (projStep p.d p.lb p.ub x dir s.t),
              (s.tr.ev (projStep p.d p.lb p.ub x dir s.t)).evg (projStep p.d p.lb p.ub x dir s.t)⟩
            (by omega) (by simp only; omega) (by simp only; split <;> linarith) ht.le hmax (projStep_length _ _ _ _ _ _)
          refine ⟨s', h1, e3.trans h2 (by simp only; omega), ?_⟩
          rcases h3 with ⟨a, b, c⟩ | ⟨a, b, c⟩ | ⟨a, b⟩
          · exact Or.inl ⟨a, by simp only at b; omega, c⟩
          · exact Or.inr (Or.inl ⟨hc, b, by simp only [Tr.ev, Tr.evg] at c; omega, c.2⟩)
          · refine Or.inr (Or.inl ⟨hc, ?_, ?_, s.t, ht, by rw [b]⟩)
            · rw [b]; simp only at a ⊢; omega
            · rw [b]; simp only [Tr.ev, Tr.evg] at a ⊢; omega
        · next hs =>
          refine ⟨_, rfl, e3.mono (by omega), Or.inl ⟨hc, le_refl _, ?_⟩⟩
          exact ⟨ht, rfl, rfl, rfl, not_lt.mp hf, not_lt.mp hs⟩
    · rw [if_neg hc]
      exact ⟨s, rfl, Tr.Ext.refl _ _ _, Or.inr (Or.inr ⟨by omega, rfl⟩)⟩

/-- C80: the weak Wolfe line search never fails, evaluates the objective at most `2*maxiter + 1` times and only inside the box, and its
`info` tells exactly what was achieved. -/
theorem lsWolfe_spec {o : Obj K} {p : Par K} (hp : p.WF) (ho : o.Len p.d) {x grad dir newx : List K} (hx : x.length = p.d)
    (hgrad : grad.length = p.d) (hdir : dir.length = p.d) (hn : newx.length = p.d) (fx newf : K) (tr : Tr K) (hmax : 2 ≤ p.lsmax) :
    ∃ r, lsWolfe o p x fx grad dir newx newf tr = .ok r ∧ Tr.Ext (InBox p.d p.lb p.ub) (2 * p.lsmax) tr r.tr ∧
      ((¬ (0 < p.alpha ∧ p.alpha < 1 / 2) ∧ r = ⟨0, newx, newf, grad, -1, tr⟩) ∨
       ((0 < p.alpha ∧ p.alpha < 1 / 2) ∧ ¬ InBox p.d p.lb p.ub x ∧ r = ⟨0, newx, newf, grad, -3, tr⟩) ∨
       ((0 < p.alpha ∧ p.alpha < 1 / 2) ∧ InBox p.d p.lb p.ub x ∧ 1 / 10 ^ 15 < dot p.d grad dir ∧ r = ⟨0, x, fx, grad, -4, tr⟩) ∨
       ((0 < p.alpha ∧ p.alpha < 1 / 2) ∧ InBox p.d p.lb p.ub x ∧ dot p.d grad dir ≤ 1 / 10 ^ 15 ∧
         ((r.info = 0 ∧ ∃ t, r.ret = t * p.alpha ∧ WeakWolfe o p x dir fx (dot p.d grad dir) t r.newx r.newf r.grad) ∨
          (r.info = 1 ∧ tr.nev + p.lsmax ≤ r.tr.nev ∧ r.newf = o.f r.newx ∧ r.grad = o.g r.newx ∧ ∃ t, 0 < t ∧ r.newx = projStep p.d p.lb p.ub x dir t)))) := by
  rw [lsWolfe, dot_ok hgrad hdir, bind_ok]
  cases hb : badPar p.alpha p.beta with
  | some e =>
    obtain ⟨he, hne⟩ := badPar_some hb
    exact ⟨_, rfl, Tr.Ext.refl _ _ _, Or.inl ⟨hne, by rw [he]⟩⟩
  | none =>
    have ha := badPar_none.mp hb
    dsimp only
    classical
    rw [violates_ok hx hp.lb hp.ub, bind_ok]
    by_cases hbox : InBox p.d p.lb p.ub x
    · rw [if_neg (by simpa using hbox)]
      by_cases hd : dot p.d grad dir > 1 / 10 ^ 15
      · rw [if_pos hd, copy_ok hx hn, bind_ok]
        exact ⟨_, rfl, Tr.Ext.refl _ _ _, Or.inr (Or.inr (Or.inl ⟨ha, hbox, hd, rfl⟩))⟩
      · rw [if_neg hd]
        obtain ⟨s, h1, h2, h3⟩ := wolfeLoop_spec hp ho hx hdir fx (dot p.d grad dir) (p.lsmax + 1)
          ⟨1, 1, 0, 0, newx, newf, grad, tr⟩ (by omega) (by simp only; omega) one_pos (le_refl _) (le_refl _) hn
        rw [h1, bind_ok]
        simp only at h2 h3
        rcases h3 with ⟨a, b, c⟩ | ⟨a, b, g, t, c, e⟩ | ⟨a, b⟩
        · rw [if_neg (by omega)]
          exact ⟨_, rfl, h2.mono (by omega), Or.inr (Or.inr (Or.inr ⟨ha, hbox, not_lt.mp hd, Or.inl ⟨rfl, s.t, rfl, c⟩⟩))⟩
        · rw [if_pos b]
          have hin : InBox p.d p.lb p.ub s.newx := by rw [e]; exact projStep_inBox _ _ _ hp.le
          exact ⟨_, rfl, h2.trans (s.tr.evg_ext hin) (by omega),
            Or.inr (Or.inr (Or.inr ⟨ha, hbox, not_lt.mp hd, Or.inr ⟨rfl, by simp only [Tr.evg]; omega, rfl, rfl, t, c, e⟩⟩))⟩
        · omega
    · rw [if_pos (by simpa using hbox)]
      exact ⟨_, rfl, Tr.Ext.refl _ _ _, Or.inr (Or.inl ⟨ha, hbox, rfl⟩)⟩

/-- C80: a full step that satisfies both conditions is taken as it is (which quasi-Newton methods rely on near a minimum). -/
theorem lsWolfe_unit {o : Obj K} {p : Par K} (hp : p.WF) (ho : o.Len p.d) {x grad dir newx : List K} (hx : x.length = p.d)
    (hgrad : grad.length = p.d) (hdir : dir.length = p.d) (hn : newx.length = p.d) (fx newf : K) (tr : Tr K) (hmax : 2 ≤ p.lsmax)
    (ha : 0 < p.alpha ∧ p.alpha < 1 / 2) (hbox : InBox p.d p.lb p.ub x) (hd : dot p.d grad dir ≤ 1 / 10 ^ 15)
    (h1 : o.f (projStep p.d p.lb p.ub x dir 1) ≤ fx + p.alpha * 1 * dot p.d grad dir)
    (h2 : p.beta * dot p.d grad dir ≤ dot p.d (o.g (projStep p.d p.lb p.ub x dir 1)) dir) :
    ∃ tr', lsWolfe o p x fx grad dir newx newf tr = .ok ⟨p.alpha, projStep p.d p.lb p.ub x dir 1,
      o.f (projStep p.d p.lb p.ub x dir 1), o.g (projStep p.d p.lb p.ub x dir 1), 0, tr'⟩ := by
  refine ⟨(tr.ev (projStep p.d p.lb p.ub x dir 1)).evg (projStep p.d p.lb p.ub x dir 1), ?_⟩
  rw [lsWolfe, dot_ok hgrad hdir, bind_ok, badPar_none.mpr ha]
  dsimp only
  classical
  rw [violates_ok hx hp.lb hp.ub, bind_ok, if_neg (by simpa using hbox), if_neg (not_lt.mpr hd), wolfeLoop, if_pos (by simp only; omega)]
  dsimp only
  rw [xMove_ok 1 hdir hx hn hp.lb hp.ub hp.le, bind_ok]
  rw [if_neg (not_lt.mpr h1), dot_ok (ho _) hdir, bind_ok, if_neg (not_lt.mpr h2)]
  rw [pure_eq_ok, bind_ok, if_neg (by simp only; omega), one_mul]
  rfl

/-- With the maximum number of line search iterations set to 0 nothing is tried, nothing is written, and yet `info = 0` (success) is
reported. -/
theorem lsWolfe_zero_actual {o : Obj K} {p : Par K} (hp : p.WF) {x grad dir newx : List K} (hx : x.length = p.d)
    (hgrad : grad.length = p.d) (hdir : dir.length = p.d) (fx newf : K) (tr : Tr K) (hmax : p.lsmax = 0)
    (ha : 0 < p.alpha ∧ p.alpha < 1 / 2) (hbox : InBox p.d p.lb p.ub x) (hd : dot p.d grad dir ≤ 1 / 10 ^ 15) :
    lsWolfe o p x fx grad dir newx newf tr = .ok ⟨p.alpha, newx, newf, grad, 0, tr⟩ := by
  rw [lsWolfe, dot_ok hgrad hdir, bind_ok, badPar_none.mpr ha]
  dsimp only
  classical
  rw [violates_ok hx hp.lb hp.ub, bind_ok, if_neg (by simpa using hbox), if_neg (not_lt.mpr hd), wolfeLoop, if_neg (by simp only; omega),
    pure_eq_ok, bind_ok, if_neg (by simp only; omega), one_mul]
  rfl

/-- The documented `info = -2` ("beta not within correct bounds") is never returned, whatever `beta` is: the test is written with `&&`. -/
theorem badPar_beta_actual (alpha beta : K) : badPar alpha beta ≠ some (-2) := fun h => by
  have := (badPar_some h).1
  omega

/-- The parabola `x² - 2x` in one variable. -/
def exObj : Obj ℚ := ⟨fun x => x.getD 0 0 ^ 2 - 2 * x.getD 0 0, fun x => [2 * x.getD 0 0 - 2]⟩

/-- Options of `c3opt_alloc(BFGS,1)` with the box `[-3,3]`. -/
def exPar : Par ℚ := ⟨1, [-3], [3], .weakwolfe, 3 / 10, 9 / 10, 500, 50000, 1 / 10 ^ 8, 1 / 10 ^ 8, 1 / 10 ^ 12⟩

theorem exPar_wf : exPar.WF := ⟨rfl, rfl, by
  intro i hi
  have : i = 0 := by simp only [exPar] at hi; omega
  subst this; decide +kernel⟩

theorem exObj_len : exObj.Len 1 := fun _ => rfl

/-- The hypotheses of `lsWolfe_spec` and `lsWolfe_unit` for the parabola with the step `dir = 1` (half the negative gradient) from 0. -/
example : exPar.WF ∧ exObj.Len exPar.d ∧ InBox exPar.d exPar.lb exPar.ub [0] ∧ dot exPar.d (exObj.g [0]) [1] ≤ 1 / 10 ^ 15 ∧
    exObj.f (projStep exPar.d exPar.lb exPar.ub [0] [1] 1) ≤ exObj.f [0] + exPar.alpha * 1 * dot exPar.d (exObj.g [0]) [1] ∧
    exPar.beta * dot exPar.d (exObj.g [0]) [1] ≤ dot exPar.d (exObj.g (projStep exPar.d exPar.lb exPar.ub [0] [1] 1)) [1] :=
  ⟨exPar_wf, exObj_len, fun i hi => by
    have : i = 0 := by simp only [exPar] at hi; omega
    subst this; decide +kernel, by decide +kernel, by decide +kernel, by decide +kernel⟩

/-- A step that has to be shortened: from 0 along `dir = 2` (the negative gradient) the full step gives no decrease, half of it is accepted. -/
example : lsWolfe exObj exPar [0] 0 [-2] [2] [7] 9 ⟨0, 0, []⟩ =
    .ok ⟨1 / 2 * (3 / 10), [1], -1, [0], 0, ⟨3, 1, [[1], [1], [2]]⟩⟩ := by decide +kernel

end C3.Opt

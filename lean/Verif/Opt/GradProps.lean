/-
Batch (projected) gradient descent, c3_opt_gradient: what the returned point, value, code and counters mean.
-/
import Verif.Opt.BoxProps
import Verif.Opt.StrongProps

set_option linter.unusedSectionVars false

namespace C3.Opt
open Finset

variable {K : Type} [Field K] [LinearOrder K] [IsStrictOrderedRing K]

/-- The negative of a vector. -/
abbrev vneg (v : List K) : List K := v.map (fun a => -a)

theorem dot_vneg (d : Nat) (x y : List K) : dot d x (vneg y) = -dot d x y := by
  rw [dot, dot, ← sum_neg_distrib]
  apply sum_congr rfl
  intro i _
  have : (vneg y).getD i 0 = -y.getD i 0 := by
    by_cases h : i < y.length
    · simp [h]
    · simp [List.getD, List.getElem?_eq_none (Nat.le_of_not_lt h)]
  rw [this]; ring

theorem dot_self_nonneg (d : Nat) (x : List K) : 0 ≤ dot d x x := sum_nonneg fun _ _ => mul_self_nonneg _

/-- Specification of one iteration of projected gradient descent from `y` to `z`, with `i` the `info` of its line search. -/
structure Moved (sq : K → K) (o : Obj K) (p : Par K) (i : Int) (y z : List K) : Prop where
  inBox : InBox p.d p.lb p.ub z
  step : ∃ t, z = projStep p.d p.lb p.ub y (vneg (o.g y)) t
  code : i = -1 ∨ i = 0 ∨ i = 1
  bad : i = -1 ↔ ¬ (0 < p.alpha ∧ p.alpha < 1 / 2)
  still : i = -1 → z = y
  wolfe : p.alg = .weakwolfe → i = 0 → ∃ t, 0 < t ∧ z = projStep p.d p.lb p.ub y (vneg (o.g y)) t ∧
    o.f z ≤ o.f y - p.alpha * t * dot p.d (o.g y) (o.g y) ∧ dot p.d (o.g z) (o.g y) ≤ p.beta * dot p.d (o.g y) (o.g y)
  back : p.alg = .backtrack → i = 0 → (∃ k : Nat, z = projStep p.d p.lb p.ub y (vneg (o.g y)) (p.beta ^ k) ∧
    o.f z ≤ o.f y - p.alpha * p.beta ^ k * dot p.d (o.g y) (o.g y)) ∨ sq (dist2 p.d z y) < p.absxtol

/-- A run from `x` to `z`; `infos` are the codes of its line searches, newest first. -/
inductive Run {σ : Type} (R : Int → σ → σ → Prop) (x : σ) : List Int → σ → Prop
  | nil : Run R x [] x
  | step {is : List Int} {i : Int} {y z : σ} (h : Run R x is y) (s : R i y z) : Run R x (i :: is) z

/-- Most evaluations of the objective in one iteration. -/
def perIter (p : Par K) (zf : Nat) : Nat := 2 * p.lsmax + 2 + zf

theorem gradSearch_spec (sq : K → K) (zf : Nat) {o : Obj K} {p : Par K} (hp : p.WF) (ho : o.Len p.d) (hmax : 2 ≤ p.lsmax)
    {x : List K} (hx : x.length = p.d) (hbox : InBox p.d p.lb p.ub x) (tr : Tr K) {r : Ls K}
    (h : gradSearch sq zf o p x (o.f x) (o.g x) (vneg (o.g x)) x tr = .ok r) :
    r.newx.length = p.d ∧ r.newf = o.f r.newx ∧ r.grad = o.g r.newx ∧ Tr.Ext (InBox p.d p.lb p.ub) (perIter p zf) tr r.tr ∧
      Moved sq o p r.info x r.newx := by
  have hdl : (vneg (o.g x)).length = p.d := by simp [ho x]
  have hdg := dot_vneg p.d (o.g x) (o.g x)
  have hnn := dot_self_nonneg p.d (o.g x)
  have hd15 : ¬ 1 / 10 ^ 15 < dot p.d (o.g x) (vneg (o.g x)) := by
    rw [hdg, not_lt]
    have : (0 : K) ≤ 1 / 10 ^ 15 := by positivity
    linarith
  have h0 : x = projStep p.d p.lb p.ub x (vneg (o.g x)) 0 := (projStep_zero _ hx hbox).symm
  rw [gradSearch] at h
  split at h
  · next halg =>
    obtain ⟨q, e1, e2, e3, e4⟩ := lsBox_spec sq (o := o) hp hx (ho x) hdl hx (o.f x) (o.f x) tr
    rw [e1, bind_ok, pure_eq_ok] at h
    injection h with h
    subst h
    rcases e4 with ⟨a, b⟩ | ⟨_, a, _⟩ | ⟨a, _, k, e5, e6, e7, e8⟩
    · rw [b]
      refine ⟨hx, rfl, rfl, (tr.evg_ext hbox).mono (by rw [perIter]; omega), hbox, ⟨0, h0⟩, Or.inl rfl, by simpa using a, fun _ => rfl, ?_, ?_⟩
      · intro _ h; simp at h
      · intro _ h; simp at h
    · exact absurd hbox a
    · have hin : InBox p.d p.lb p.ub q.newx := by rw [e6]; exact projStep_inBox _ _ _ hp.le
      refine ⟨by rw [e6]; exact projStep_length _ _ _ _ _ _, rfl, rfl, e2.trans (q.tr.evg_ext hin) (by rw [perIter]; omega), hin, ⟨_, e6⟩, ?_, ?_, ?_, ?_, ?_⟩
      · rcases e8 with ⟨a, _⟩ | ⟨a, _⟩ | ⟨a, _⟩ <;> simp [a]
      · have : q.info ≠ -1 := by rcases e8 with ⟨a, _⟩ | ⟨a, _⟩ | ⟨a, _⟩ <;> simp [a]
        simp [this, a.1]; simpa using a.2
      · intro hm
        simp only at hm
        rcases e8 with ⟨a, _⟩ | ⟨a, _⟩ | ⟨a, _⟩ <;> rw [a] at hm <;> simp at hm
      · intro h; rw [halg] at h; simp at h
      · intro _ hi
        simp only at hi ⊢
        rcases e8 with ⟨_, a⟩ | ⟨_, a⟩ | ⟨a, _⟩
        · refine Or.inl ⟨k, e6, ?_⟩
          rw [← e7]
          rw [hdg] at a
          linarith
        · exact Or.inr a
        · rw [a] at hi; simp at hi
  · next halg =>
    obtain ⟨e2, e4⟩ := lsStrong_spec sq zf hp ho hx (ho x) hdl hx tr rfl (by omega) h
    rcases e4 with ⟨a, b⟩ | ⟨_, a, _⟩ | ⟨_, _, a, _⟩ | ⟨a, _, _, e5, e6⟩
    · rw [b]
      refine ⟨hx, rfl, rfl, Tr.Ext.refl _ _ _, hbox, ⟨0, h0⟩, Or.inl rfl, by simpa using a, fun _ => rfl, ?_, ?_⟩
      · intro _ h; simp at h
      · intro _ h; simp at h
    · exact absurd hbox a
    · exact absurd a hd15
    · have hcode : r.info = 0 ∨ r.info = 1 := by
        cases e6 with
        | accepted _ _ hi => exact Or.inl hi
        | short _ _ hi => exact Or.inl hi
        | gaveUp _ _ hi => exact Or.inl hi
        | maxiter _ hi => exact Or.inr hi
      refine ⟨e5.length, e5.val, e5.gradient, e2.mono (by rw [perIter]; omega), e5.inBox hp, e5.step, Or.inr hcode, ?_, ?_, ?_, ?_⟩
      · have : r.info ≠ -1 := by omega
        simp [this, a.1]; simpa using a.2
      · intro hm; omega
      · intro h; rw [halg] at h; simp at h
      · intro h; rw [halg] at h; simp at h
  · next halg =>
    obtain ⟨q, e1, e2, e4⟩ := lsWolfe_spec (o := o) hp ho hx (ho x) hdl hx (o.f x) (o.f x) tr hmax
    rw [e1] at h
    injection h with h
    subst h
    rcases e4 with ⟨a, b⟩ | ⟨_, a, _⟩ | ⟨_, _, a, _⟩ | ⟨a, _, _, e5⟩
    · rw [b]
      refine ⟨hx, rfl, rfl, Tr.Ext.refl _ _ _, hbox, ⟨0, h0⟩, Or.inl rfl, by simpa using a, fun _ => rfl, ?_, ?_⟩
      · intro _ h; simp at h
      · intro _ h; simp at h
    · exact absurd hbox a
    · exact absurd a hd15
    · obtain ⟨t, ht, hnx⟩ : ∃ t, 0 < t ∧ q.newx = projStep p.d p.lb p.ub x (vneg (o.g x)) t := by
        rcases e5 with ⟨_, t, _, hw⟩ | ⟨_, _, _, _, t, ht, hs⟩
        · exact ⟨t, hw.pos, hw.step⟩
        · exact ⟨t, ht, hs⟩
      have hv : q.newf = o.f q.newx ∧ q.grad = o.g q.newx := by
        rcases e5 with ⟨_, t, _, hw⟩ | ⟨_, _, a, b, _⟩
        · exact ⟨hw.val, hw.gradient⟩
        · exact ⟨a, b⟩
      refine ⟨by rw [hnx]; exact projStep_length _ _ _ _ _ _, hv.1, hv.2, e2.mono (by rw [perIter]; omega),
        by rw [hnx]; exact projStep_inBox _ _ _ hp.le, ⟨t, hnx⟩, ?_, ?_, ?_, ?_, ?_⟩
      · rcases e5 with ⟨a, _⟩ | ⟨a, _⟩ <;> simp [a]
      · have : q.info ≠ -1 := by rcases e5 with ⟨a, _⟩ | ⟨a, _⟩ <;> simp [a]
        simp [this, a.1]; simpa using a.2
      · intro hm
        rcases e5 with ⟨a, _⟩ | ⟨a, _⟩ <;> rw [a] at hm <;> simp at hm
      · intro _ hi
        rcases e5 with ⟨_, t, _, hw⟩ | ⟨a, _⟩
        · refine ⟨t, hw.pos, hw.step, ?_, ?_⟩
          · have := hw.armijo
            rw [hdg, hw.val] at this
            linarith
          · have := hw.slope
            rw [hw.gradient, hdg, dot_vneg] at this
            linarith
        · rw [a] at hi; simp at hi
      · intro h; rw [halg] at h; simp at h

/-- Specification of the return code: `y` is the last iterate but one, `z` the final point. -/
def CodeOk (sq : K → K) (o : Obj K) (p : Par K) (niters : Nat) (y z : List K) : Ret → Prop
  | .gtol => Inside p.d p.lb p.ub z ∧ dot p.d (o.g z) (o.g z) < p.gtol ^ 2
  | .ftol => (1 / 10 ^ 10 < |o.f y| ∧ |o.f z - o.f y| / |o.f y| < p.relftol) ∨ (|o.f y| ≤ 1 / 10 ^ 10 ∧ |o.f z - o.f y| < p.relftol)
  | .xtol => sq (dist2 p.d z y) < p.absxtol
  | .maxiter => niters = max p.maxiter 1 + 1
  | .success => False

theorem gradLoop_spec (sq : K → K) (zf : Nat) {o : Obj K} {p : Par K} (hp : p.WF) (ho : o.Len p.d) (hmax : 2 ≤ p.lsmax)
    {x0 : List K} : ∀ fuel iter x cur dir tr infos r, x.length = p.d → cur.length = p.d → dir.length = p.d →
    InBox p.d p.lb p.ub x → 1 ≤ iter → iter ≤ max p.maxiter 1 → Run (Moved sq o p) x0 infos x →
    gradLoop sq zf o p fuel iter x (o.f x) (o.g x) cur dir iter tr infos = .ok r →
    r.x.length = p.d ∧ r.fval = o.f r.x ∧ r.grad = o.g r.x ∧ r.niters + infos.length = iter + r.infos.length ∧
      r.niters ≤ max p.maxiter 1 + 1 ∧
      Tr.Ext (InBox p.d p.lb p.ub) (perIter p zf * (r.niters - iter)) tr r.tr ∧ iter < r.niters ∧
      ∃ y i is, r.infos = i :: is ∧ Run (Moved sq o p) x0 is y ∧ Moved sq o p i y r.x ∧ CodeOk sq o p r.niters y r.x r.ret := by
  intro fuel
  induction fuel with
  | zero => intro iter x cur dir tr infos r _ _ _ _ _ _ _ h; simp [gradLoop] at h
  | succ fuel ih =>
    intro iter x cur dir tr infos r hx hc hd hbox hit hit' hrun h
    rw [gradLoop, copy_ok hx hc, bind_ok, neg_ok (ho x) hd, bind_ok] at h
    cases hs : gradSearch sq zf o p x (o.f x) (o.g x) ((o.g x).map fun v => -v) x tr with
    | error e => rw [hs, bind_error] at h; simp at h
    | ok q =>
      rw [hs, bind_ok] at h
      obtain ⟨a1, a2, a3, a4, a5⟩ := gradSearch_spec sq zf hp ho hmax hx hbox tr hs
      have hgl : q.grad.length = p.d := by rw [a3]; exact ho _
      split at h
      · next hm =>
        rw [pure_eq_ok] at h
        injection h with h
        subst h
        refine ⟨a1, a2, a3, by simp only [List.length_cons]; omega, by simp only; omega, a4.mono (by simp), by simp only; omega, x, q.info, infos, rfl, hrun, a5, ?_⟩
        simp only [CodeOk]; omega
      · next hm =>
        rw [dot_ok hgl hgl, bind_ok] at h
        classical
        rw [onBound_ok a1 hp.lb hp.ub, bind_ok, norm2diff_ok sq a1 hx, bind_ok] at h
        split at h
        · next c hcode =>
          rw [pure_eq_ok] at h
          injection h with h
          subst h
          refine ⟨a1, a2, a3, by simp only [List.length_cons]; omega, by simp only; omega, a4.mono (by simp), by simp only; omega, x, q.info, infos, rfl, hrun, a5, ?_⟩
          simp only
          have hf : fdiff q.newf (o.f x) < p.relftol →
              ((1 / 10 ^ 10 < |o.f x| ∧ |o.f q.newx - o.f x| / |o.f x| < p.relftol) ∨ (|o.f x| ≤ 1 / 10 ^ 10 ∧ |o.f q.newx - o.f x| < p.relftol)) := by
            intro hf
            rw [fdiff, a2] at hf
            split at hf
            · next h1 => exact Or.inl ⟨h1, hf⟩
            · next h1 => exact Or.inr ⟨not_lt.mp h1, hf⟩
          rw [gradTest] at hcode
          by_cases hin : Inside p.d p.lb p.ub q.newx
          · rw [if_neg (by simpa using hin)] at hcode
            split at hcode
            · next he =>
              injection hcode with hcode
              subst hcode
              rw [a3] at he
              exact ⟨hin, he⟩
            · split at hcode
              · next he =>
                injection hcode with hcode
                subst hcode
                exact hf he
              · split at hcode
                · next he =>
                  injection hcode with hcode
                  subst hcode
                  exact he
                · simp at hcode
          · rw [if_pos (by simpa using hin)] at hcode
            split at hcode
            · next he =>
              injection hcode with hcode
              subst hcode
              exact hf he
            · split at hcode
              · next he =>
                injection hcode with hcode
                subst hcode
                exact he
              · simp at hcode
        · next hcode =>
          rw [a2, a3] at h
          obtain ⟨b1, b2, b3, b4, b5, b6, b7, b8⟩ := ih (iter + 1) q.newx x _ q.tr (q.info :: infos) r a1 hx (by simp [ho x]) a5.inBox (by omega)
            (by omega) (Run.step hrun a5) h
          refine ⟨b1, b2, b3, by simp only [List.length_cons] at b4; omega, b5, a4.trans b6 ?_, by omega, b8⟩
          have : r.niters - iter = (r.niters - (iter + 1)) + 1 := by omega
          rw [this, Nat.mul_add, Nat.mul_one, Nat.add_comm]

/-- C81: whenever batch gradient descent returns from a start inside the box, the point lies in the box, value and gradient belong to
it, the objective was evaluated only inside the box, the number of iterations respects the limit, the point was reached by projected
steps along negative gradients as described by `Moved`, and the return code is true of the last step. -/
theorem optGradient_spec (sq : K → K) (zf : Nat) {o : Obj K} {p : Par K} (hp : p.WF) (ho : o.Len p.d) (hmax : 2 ≤ p.lsmax)
    {x cur dir : List K} (hx : x.length = p.d) (hc : cur.length = p.d) (hd : dir.length = p.d) (hbox : InBox p.d p.lb p.ub x)
    {r : Res K} (h : optGradient sq zf o p x cur dir = .ok r) :
    r.x.length = p.d ∧ InBox p.d p.lb p.ub r.x ∧ r.fval = o.f r.x ∧ r.grad = o.g r.x ∧
      r.niters ≤ max p.maxiter 1 + 1 ∧ r.niters = r.infos.length + 1 ∧ Run (Moved sq o p) x r.infos r.x ∧
      (∀ y ∈ r.tr.pts, InBox p.d p.lb p.ub y) ∧ r.tr.nev = r.tr.pts.length ∧ r.tr.ngv ≤ r.tr.nev ∧
      r.tr.nev ≤ 1 + perIter p zf * (r.niters - 1) ∧
      ((r.infos = [] ∧ r.ret = .gtol ∧ sq (dot p.d (o.g x) (o.g x)) < p.gtol) ∨
       ∃ y i is, r.infos = i :: is ∧ Run (Moved sq o p) x is y ∧ Moved sq o p i y r.x ∧ CodeOk sq o p r.niters y r.x r.ret) := by
  rw [optGradient] at h
  rw [dot_ok (ho x) (ho x), bind_ok] at h
  split at h
  · next hs =>
    rw [pure_eq_ok] at h
    injection h with h
    subst h
    refine ⟨hx, hbox, rfl, rfl, by simp only; omega, rfl, Run.nil, ?_, rfl, by simp [Tr.evg], by simp [Tr.evg], Or.inl ⟨rfl, rfl, hs⟩⟩
    intro y hy
    have : y = x := by simpa [Tr.evg] using hy
    rw [this]; exact hbox
  · obtain ⟨b1, b2, b3, b4, b5, ⟨L, c1, c2, c3, c4, c5, c6⟩, b7, y, i, is, d1, d2, d3, d4⟩ := gradLoop_spec sq zf hp ho hmax _ _ _ _ _ _ _ _ hx hc hd hbox
      (le_refl 1) (le_max_right _ _) (Run.nil (x := x)) h
    simp only [Tr.evg] at c1 c3 c4 c5
    refine ⟨b1, d3.inBox, b2, b3, b5, by simp only [List.length_nil] at b4; omega, by rw [d1]; exact Run.step d2 d3, ?_, ?_, by omega, by omega,
      Or.inr ⟨y, i, is, d1, d2, d3, d4⟩⟩
    · intro z hz
      rw [c1] at hz
      rcases List.mem_append.mp hz with hz | hz
      · exact c6 z hz
      · have : z = x := by simpa using hz
        rw [this]; exact hbox
    · rw [c1, c3]; simp; omega

/-- C81: if every weak Wolfe search succeeded, the objective never increased: the final value is at most the initial one minus the sum of
the predicted decreases. -/
theorem optGradient_descent (sq : K → K) {o : Obj K} {p : Par K} (ha : 0 ≤ p.alpha) (halg : p.alg = .weakwolfe) {x z : List K} {infos : List Int}
    (h : Run (Moved sq o p) x infos z) (hi : ∀ i ∈ infos, i = 0) :
    ∃ ts : List (K × K), ts.length = infos.length ∧ (∀ t ∈ ts, 0 < t.1 ∧ 0 ≤ t.2) ∧ o.f z + p.alpha * (ts.map fun t => t.1 * t.2).sum ≤ o.f x ∧
      o.f z ≤ o.f x := by
  induction h with
  | nil => exact ⟨[], rfl, by simp, by simp, le_refl _⟩
  | step h s ih =>
    next is i y z =>
    obtain ⟨ts, e1, e2, e3, e4⟩ := ih (fun j hj => hi j (List.mem_cons_of_mem _ hj))
    obtain ⟨t, h1, h2, h3, h4⟩ := s.wolfe halg (hi i List.mem_cons_self)
    have hnn := dot_self_nonneg p.d (o.g y)
    refine ⟨(t, dot p.d (o.g y) (o.g y)) :: ts, by simp [e1], ?_, ?_, ?_⟩
    · intro u hu
      rcases List.mem_cons.mp hu with hu | hu
      · rw [hu]; exact ⟨h1, hnn⟩
      · exact e2 u hu
    · simp only [List.map_cons, List.sum_cons]
      have : p.alpha * (t * dot p.d (o.g y) (o.g y) + (ts.map fun t => t.1 * t.2).sum) =
        p.alpha * t * dot p.d (o.g y) (o.g y) + p.alpha * (ts.map fun t => t.1 * t.2).sum := by ring
      linarith
    · have : 0 ≤ p.alpha * t * dot p.d (o.g y) (o.g y) := mul_nonneg (mul_nonneg ha h1.le) hnn
      linarith

theorem gradLoop_total (sq : K → K) (zf : Nat) {o : Obj K} {p : Par K} (hp : p.WF) (ho : o.Len p.d) (hmax : 2 ≤ p.lsmax)
    (hz : p.alg = .strongwolfe → 68 ≤ zf) : ∀ fuel iter x cur dir n tr infos, x.length = p.d → cur.length = p.d → dir.length = p.d →
    InBox p.d p.lb p.ub x → 1 ≤ fuel → p.maxiter < iter + fuel →
    (∃ r, gradLoop sq zf o p fuel iter x (o.f x) (o.g x) cur dir n tr infos = .ok r) ∨
      (p.alg = .strongwolfe ∧ gradLoop sq zf o p fuel iter x (o.f x) (o.g x) cur dir n tr infos = .error .assertFail) := by
  intro fuel
  induction fuel with
  | zero => intro iter x cur dir n tr infos _ _ _ _ h; omega
  | succ fuel ih =>
    intro iter x cur dir n tr infos hx hc hd hbox hf1 hf
    rw [gradLoop, copy_ok hx hc, bind_ok, neg_ok (ho x) hd, bind_ok]
    have hdl : ((o.g x).map fun v => -v).length = p.d := by simp [ho x]
    have hs : (∃ q, gradSearch sq zf o p x (o.f x) (o.g x) ((o.g x).map fun v => -v) x tr = .ok q) ∨
        (p.alg = .strongwolfe ∧ gradSearch sq zf o p x (o.f x) (o.g x) ((o.g x).map fun v => -v) x tr = .error .assertFail) := by
      rw [gradSearch]
      split
      · obtain ⟨q, e1, _⟩ := lsBox_spec sq (o := o) hp hx (ho x) hdl hx (o.f x) (o.f x) tr
        rw [e1, bind_ok]
        exact Or.inl ⟨_, rfl⟩
      · next halg =>
        rcases lsStrong_total sq (hz halg) hp ho hx (ho x) hdl hx (o.f x) (o.f x) tr with h | h
        · exact Or.inl h
        · exact Or.inr ⟨halg, h⟩
      · obtain ⟨q, e1, _⟩ := lsWolfe_spec (o := o) hp ho hx (ho x) hdl hx (o.f x) (o.f x) tr hmax
        exact Or.inl ⟨q, e1⟩
    rcases hs with ⟨q, hs⟩ | ⟨halg, hs⟩
    · rw [hs, bind_ok]
      obtain ⟨a1, a2, a3, a4, a5⟩ := gradSearch_spec sq zf hp ho hmax hx hbox tr hs
      have hgl : q.grad.length = p.d := by rw [a3]; exact ho _
      split
      · exact Or.inl ⟨_, rfl⟩
      · rw [dot_ok hgl hgl, bind_ok]
        classical
        rw [onBound_ok a1 hp.lb hp.ub, bind_ok, norm2diff_ok sq a1 hx, bind_ok]
        split
        · exact Or.inl ⟨_, rfl⟩
        · rw [a2, a3]
          exact ih _ _ _ _ _ _ _ a1 hx hdl a5.inBox (by omega) (by omega)
    · rw [hs, bind_error]
      exact Or.inr ⟨halg, rfl⟩

/-- C81: batch gradient descent always ends; with the backtracking or the weak Wolfe search it always returns. -/
theorem optGradient_total (sq : K → K) (zf : Nat) {o : Obj K} {p : Par K} (hp : p.WF) (ho : o.Len p.d) (hmax : 2 ≤ p.lsmax)
    (hz : p.alg = .strongwolfe → 68 ≤ zf) {x cur dir : List K} (hx : x.length = p.d) (hc : cur.length = p.d) (hd : dir.length = p.d)
    (hbox : InBox p.d p.lb p.ub x) :
    (∃ r, optGradient sq zf o p x cur dir = .ok r) ∨
      (p.alg = .strongwolfe ∧ optGradient sq zf o p x cur dir = .error .assertFail) := by
  rw [optGradient]
  rw [dot_ok (ho x) (ho x), bind_ok]
  split
  · exact Or.inl ⟨_, rfl⟩
  · exact gradLoop_total sq zf hp ho hmax hz _ _ _ _ _ _ _ _ hx hc hd hbox (by omega) (by omega)

/-- C81: the return code of the line search is ignored. A start outside the box (search code -3) is reported as converged
(`C3OPT_FTOL_REACHED`) at the infeasible start, without a single step. -/
theorem optGradient_infeasible_counterexample :
    ¬ InBox exPar.d exPar.lb exPar.ub [5] ∧
    optGradient (fun s => s) 0 exObj exPar [5] [0] [0] = .ok ⟨[5], 15, [8], .ftol, 2, ⟨1, 1, [[5]]⟩, [-3]⟩ := by
  refine ⟨fun h => ?_, by decide +kernel⟩
  exact absurd (h 0 (by decide)).2 (by decide +kernel)

/-- C81: the same with a line search parameter outside (0,1/2): converged at the start, where the gradient is -2. -/
theorem optGradient_alpha_counterexample :
    optGradient (fun s => s) 0 exObj { exPar with alpha := 3 / 4 } [0] [0] [0] = .ok ⟨[0], 0, [-2], .ftol, 2, ⟨1, 1, [[0]]⟩, [-1]⟩ := by
  decide +kernel

/-- C81: a line search that runs out of iterations (code 1) is also accepted: with 2 search iterations one iteration of gradient
descent on `f(x) = 3x² - 2x` moves uphill, from 0 (value 0) to 2 (value 8). -/
theorem optGradient_ascent_counterexample :
    optGradient (fun s => s) 0 (⟨fun x => 3 * x.getD 0 0 ^ 2 - 2 * x.getD 0 0, fun x => [6 * x.getD 0 0 - 2]⟩ : Obj ℚ)
      { exPar with lsmax := 2, maxiter := 1 } [0] [0] [0] = .ok ⟨[2], 8, [10], .maxiter, 2, ⟨3, 2, [[2], [2], [0]]⟩, [1]⟩ := by
  decide +kernel

/-- The hypotheses of `optGradient_spec`: one iteration solves the parabola. -/
example : exPar.WF ∧ exObj.Len exPar.d ∧ 2 ≤ exPar.lsmax ∧ InBox exPar.d exPar.lb exPar.ub [0] ∧
    optGradient (fun s => s) 0 exObj exPar [0] [0] [0] = .ok ⟨[1], -1, [0], .gtol, 2, ⟨4, 2, [[1], [1], [2], [0]]⟩, [0]⟩ :=
  ⟨exPar_wf, exObj_len, by decide, fun i hi => by
    have : i = 0 := by simp only [exPar] at hi; omega
    subst this; decide +kernel, by decide +kernel⟩

end C3.Opt

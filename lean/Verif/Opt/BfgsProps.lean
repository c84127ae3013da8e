/-
The BFGS optimizer: what the returned point, value, gradient, matrix and code mean; secant equation, positive definiteness, descent.
-/
import Verif.Opt.BfgsLemmas

set_option linter.unusedSectionVars false

namespace C3.Opt
open Finset

variable {K : Type} [Field K] [LinearOrder K] [IsStrictOrderedRing K]

/-- The quasi-Newton direction `-H*g`. -/
def qn (d : Nat) (h g : List K) : List K := (List.range d).map fun i => -mulv d (Hm d h) (gv g) i

theorem gv_qn {d i : Nat} (h g : List K) (hi : i < d) : gv (qn d h g) i = -mulv d (Hm d h) (gv g) i := by simp [gv, qn, hi]

/-- The search direction used from the point with gradient `g`: `-H*g`, or the negative gradient if that is no direction of descent. -/
def BDir (d : Nat) (h g dir : List K) : Prop :=
  dir = qn d h g ∨ (1 / 10 ^ 15 < dot d g (qn d h g) ∧ dir = vneg g)

/-- The vector `b - a`. -/
def vdiff (a b : List K) (i : Nat) : K := b.getD i 0 - a.getD i 0

/-- Specification of one iteration of BFGS from point and matrix `a` to point and matrix `b`, `i` is the code of the line search. -/
structure BMoved (o : Obj K) (p : Par K) (i : Int) (a b : List K × List K) : Prop where
  inBox : InBox p.d p.lb p.ub b.1
  length : b.1.length = p.d
  step : ∃ dir t, BDir p.d a.2 (o.g a.1) dir ∧ b.1 = projStep p.d p.lb p.ub a.1 dir t
  code : p.alg = .weakwolfe → i = 0 ∨ i = 1
  wolfe : p.alg = .weakwolfe → i = 0 → ∃ dir t, BDir p.d a.2 (o.g a.1) dir ∧
    WeakWolfe o p a.1 dir (o.f a.1) (dot p.d (o.g a.1) dir) t b.1 (o.f b.1) (o.g b.1) ∧ dot p.d (o.g a.1) dir ≤ 1 / 10 ^ 15
  update : 1 / 10 ^ 16 < |ip p.d (vdiff a.1 b.1) (vdiff (o.g a.1) (o.g b.1))| → ∀ i < p.d, ∀ j < p.d,
    Hm p.d b.2 i j = bfgs p.d (Hm p.d a.2) (vdiff a.1 b.1) (vdiff (o.g a.1) (o.g b.1)) i j
  keep : |ip p.d (vdiff a.1 b.1) (vdiff (o.g a.1) (o.g b.1))| ≤ 1 / 10 ^ 16 → b.2 = a.2

theorem neg_copy_ok {d : Nat} {g : List K} (hg : g.length = d) : dscal d (-1) g = .ok (vneg g) := by
  rw [dscal_ok (-1) hg]
  congr 1
  apply List.ext_getElem
  · simp [hg]
  · intro i h1 h2
    simp at h2
    simp [h2]

theorem bfgsRounds_neg {o : Obj K} {p : Par K} (hp : p.WF) (ho : o.Len p.d) (hmax : 2 ≤ p.lsmax) (ha : 0 < p.alpha ∧ p.alpha < 1 / 2)
    {x : List K} (hx : x.length = p.d) (hbox : InBox p.d p.lb p.ub x) {dir : List K} (hd : dir.length = p.d)
    (hdg : dot p.d (o.g x) dir ≤ 1 / 10 ^ 15) (fuel : Nat) (tr : Tr K) :
    ∃ r, bfgsRounds o p x (o.f x) (o.g x) (fuel + 1) (o.g x) dir x (o.f x) tr = .ok (r, dir) ∧ r.newx.length = p.d ∧ r.newf = o.f r.newx ∧
      r.grad = o.g r.newx ∧ Tr.Ext (InBox p.d p.lb p.ub) (2 * p.lsmax) tr r.tr ∧ (∃ t, r.newx = projStep p.d p.lb p.ub x dir t) ∧
      (r.info = 0 ∨ r.info = 1) ∧
      (r.info = 0 → ∃ t, WeakWolfe o p x dir (o.f x) (dot p.d (o.g x) dir) t r.newx (o.f r.newx) (o.g r.newx)) := by
  obtain ⟨r, h1, h2, h3⟩ := lsWolfe_spec (o := o) hp ho hx (ho x) hd hx (o.f x) (o.f x) tr hmax
  rw [bfgsRounds, h1, bind_ok]
  rcases h3 with ⟨a, _⟩ | ⟨_, a, _⟩ | ⟨_, _, a, _⟩ | ⟨_, _, _, e⟩
  · exact absurd ha a
  · exact absurd hbox a
  · exact absurd hdg (not_le.mpr a)
  · rcases e with ⟨i0, t, _, hw⟩ | ⟨i1, _, v, g, t, _, hs⟩
    · rw [if_neg (by omega), if_neg (by omega)]
      refine ⟨r, rfl, by rw [hw.step]; exact projStep_length _ _ _ _ _ _, hw.val, hw.gradient, h2, ⟨t, hw.step⟩, Or.inl i0, fun _ => ⟨t, ?_⟩⟩
      have := hw
      rw [hw.val, hw.gradient] at this
      exact this
    · rw [if_neg (by omega), if_neg (by omega)]
      exact ⟨r, rfl, by rw [hs]; exact projStep_length _ _ _ _ _ _, v, g, h2, ⟨t, hs⟩, Or.inr i1, fun h => by omega⟩

/-- With legal parameters and a feasible point the repeated weak Wolfe search needs at most two rounds. -/
theorem bfgsRounds_ok {o : Obj K} {p : Par K} (hp : p.WF) (ho : o.Len p.d) (hmax : 2 ≤ p.lsmax) (ha : 0 < p.alpha ∧ p.alpha < 1 / 2)
    {x : List K} (hx : x.length = p.d) (hbox : InBox p.d p.lb p.ub x) {dir : List K} (hd : dir.length = p.d) (fuel : Nat) (tr : Tr K) :
    ∃ r dir', bfgsRounds o p x (o.f x) (o.g x) (fuel + 2) (o.g x) dir x (o.f x) tr = .ok (r, dir') ∧
      (dir' = dir ∨ (1 / 10 ^ 15 < dot p.d (o.g x) dir ∧ dir' = vneg (o.g x))) ∧ dot p.d (o.g x) dir' ≤ 1 / 10 ^ 15 ∧ r.newx.length = p.d ∧
      r.newf = o.f r.newx ∧
      r.grad = o.g r.newx ∧ Tr.Ext (InBox p.d p.lb p.ub) (2 * p.lsmax) tr r.tr ∧ (∃ t, r.newx = projStep p.d p.lb p.ub x dir' t) ∧
      (r.info = 0 ∨ r.info = 1) ∧
      (r.info = 0 → ∃ t, WeakWolfe o p x dir' (o.f x) (dot p.d (o.g x) dir') t r.newx (o.f r.newx) (o.g r.newx)) := by
  by_cases hdg : dot p.d (o.g x) dir ≤ 1 / 10 ^ 15
  · obtain ⟨r, h⟩ := bfgsRounds_neg hp ho hmax ha hx hbox hd hdg (fuel + 1) tr
    exact ⟨r, dir, h.1, Or.inl rfl, hdg, h.2⟩
  · have hdg' := not_le.mp hdg
    have hneg : dot p.d (o.g x) (vneg (o.g x)) ≤ 1 / 10 ^ 15 := by
      rw [dot_vneg]
      have h1 := dot_self_nonneg p.d (o.g x)
      have : (0 : K) ≤ 1 / 10 ^ 15 := by positivity
      linarith
    obtain ⟨q, h⟩ := bfgsRounds_neg hp ho hmax ha hx hbox (dir := vneg (o.g x)) (by simp [ho x]) hneg fuel tr
    refine ⟨q, vneg (o.g x), ?_, Or.inr ⟨hdg', rfl⟩, hneg, h.2⟩
    rw [bfgsRounds]
    obtain ⟨r, h1, h2, h3⟩ := lsWolfe_spec (o := o) hp ho hx (ho x) hd hx (o.f x) (o.f x) tr hmax
    rw [h1, bind_ok]
    rcases h3 with ⟨a, _⟩ | ⟨_, a, _⟩ | ⟨_, _, _, e⟩ | ⟨_, _, a, _⟩
    · exact absurd ha a
    · exact absurd hbox a
    · rw [e]
      dsimp only
      rw [if_pos rfl, dcopy_ok (ho x) hd, bind_ok, neg_copy_ok (ho x), bind_ok]
      exact h.1
    · exact absurd a hdg

/-- What one line search of the BFGS optimizer gives, started at a feasible point. -/
structure SearchOk (o : Obj K) (p : Par K) (zf : Nat) (x dir : List K) (tr : Tr K) (r : Ls K) (dir' : List K) : Prop where
  xlen : r.newx.length = p.d
  dlen : dir'.length = p.d
  val : r.newf = o.f r.newx
  gradient : r.grad = o.g r.newx
  ext : Tr.Ext (InBox p.d p.lb p.ub) (perIter p zf) tr r.tr
  inBox : InBox p.d p.lb p.ub r.newx
  step : ∃ t, r.newx = projStep p.d p.lb p.ub x dir' t
  dirs : dir' = dir ∨ (1 / 10 ^ 15 < dot p.d (o.g x) dir ∧ dir' = vneg (o.g x))
  code : p.alg = .weakwolfe → r.info = 0 ∨ r.info = 1
  wolfe : p.alg = .weakwolfe → r.info = 0 →
    ∃ t, WeakWolfe o p x dir' (o.f x) (dot p.d (o.g x) dir') t r.newx (o.f r.newx) (o.g r.newx) ∧ dot p.d (o.g x) dir' ≤ 1 / 10 ^ 15

theorem bfgsSearch_spec (sq : K → K) (zf : Nat) {o : Obj K} {p : Par K} (hp : p.WF) (ho : o.Len p.d) (hmax : 2 ≤ p.lsmax)
    {x dir w2 : List K} (hx : x.length = p.d) (hd : dir.length = p.d) (hw : w2.length = p.d) (hbox : InBox p.d p.lb p.ub x) (tr : Tr K)
    {r : Ls K × List K} (h : bfgsSearch sq zf o p x (o.f x) (o.g x) dir w2 x tr = .ok r) : SearchOk o p zf x dir tr r.1 r.2 := by
  have h0 : x = projStep p.d p.lb p.ub x dir 0 := (projStep_zero _ hx hbox).symm
  rw [bfgsSearch] at h
  split at h
  · next halg =>
    obtain ⟨q, e1, e2, e3, e4⟩ := lsBox_spec sq (o := o) hp hx (ho x) hd hx (o.f x) (o.f x) tr
    rw [e1, bind_ok, pure_eq_ok] at h
    injection h with h
    subst h
    have hnw : ¬ p.alg = .weakwolfe := by rw [halg]; simp
    rcases e4 with ⟨_, b⟩ | ⟨_, a, _⟩ | ⟨_, _, k, e5, e6, e7, _⟩
    · rw [b]
      exact ⟨hx, hd, rfl, rfl, (tr.evg_ext hbox).mono (by rw [perIter]; omega), hbox, ⟨0, h0⟩, Or.inl rfl, fun h => absurd h hnw, fun h => absurd h hnw⟩
    · exact absurd hbox a
    · have hin : InBox p.d p.lb p.ub q.newx := by rw [e6]; exact projStep_inBox _ _ _ hp.le
      exact ⟨by rw [e6]; exact projStep_length _ _ _ _ _ _, hd, e7, rfl, e2.trans (q.tr.evg_ext hin) (by rw [perIter]; omega), hin, ⟨_, e6⟩, Or.inl rfl,
        fun h => absurd h hnw, fun h => absurd h hnw⟩
  · next halg =>
    have hnw : ¬ p.alg = .weakwolfe := by rw [halg]; simp
    rw [dcopy_ok (ho x) hw, bind_ok] at h
    cases hs : lsStrong sq zf o p x (o.f x) (o.g x) dir x (o.f x) tr with
    | error e => rw [hs, bind_error] at h; simp at h
    | ok q =>
      rw [hs, bind_ok, pure_eq_ok] at h
      injection h with h
      subst h
      obtain ⟨e2, e4⟩ := lsStrong_spec sq zf hp ho hx (ho x) hd hx tr rfl (by omega) hs
      rcases e4 with ⟨_, b⟩ | ⟨_, a, _⟩ | ⟨_, _, _, b⟩ | ⟨a, _, _, e5, _⟩
      · rw [b]
        exact ⟨hx, hd, rfl, rfl, Tr.Ext.refl _ _ _, hbox, ⟨0, h0⟩, Or.inl rfl, fun h => absurd h hnw, fun h => absurd h hnw⟩
      · exact absurd hbox a
      · rw [b]
        exact ⟨hx, hd, rfl, rfl, Tr.Ext.refl _ _ _, hbox, ⟨0, h0⟩, Or.inl rfl, fun h => absurd h hnw, fun h => absurd h hnw⟩
      · exact ⟨e5.length, hd, e5.val, e5.gradient, e2.mono (by rw [perIter]; omega), e5.inBox hp, e5.step, Or.inl rfl, fun h => absurd h hnw,
          fun h => absurd h hnw⟩
  · next halg =>
    rw [dcopy_ok (ho x) hw, bind_ok] at h
    by_cases ha : 0 < p.alpha ∧ p.alpha < 1 / 2
    · obtain ⟨q, dir', h1, h2, h3, h4, h5, h6, h7, h8, h9, h10⟩ := bfgsRounds_ok hp ho hmax ha hx hbox hd 1 tr
      rw [h1] at h
      injection h with h
      subst h
      have hdl : dir'.length = p.d := by
        rcases h2 with h2 | h2
        · rw [h2]; exact hd
        · rw [h2.2]; simp [ho x]
      obtain ⟨t, ht⟩ := h8
      refine ⟨h4, hdl, h5, h6, h7.mono (by rw [perIter]; omega), by simp only; rw [ht]; exact projStep_inBox _ _ _ hp.le, ⟨t, ht⟩, h2, fun _ => h9, ?_⟩
      intro _ hi
      obtain ⟨t, ht⟩ := h10 hi
      exact ⟨t, ht, h3⟩
    · rw [bfgsRounds] at h
      obtain ⟨q, h1, h2, h3⟩ := lsWolfe_spec (o := o) hp ho hx (ho x) hd hx (o.f x) (o.f x) tr hmax
      rw [h1, bind_ok] at h
      rcases h3 with ⟨_, b⟩ | ⟨a, _⟩ | ⟨a, _⟩ | ⟨a, _⟩
      · rw [b] at h
        simp at h
      · exact absurd a ha
      · exact absurd a ha
      · exact absurd a ha

/-- Specification of the return code of BFGS: `y` is the last iterate but one, `z` and `h` the final point and matrix. -/
def BCodeOk (sq : K → K) (o : Obj K) (p : Par K) (niters : Nat) (y z h : List K) : Ret → Prop
  | .gtol => Inside p.d p.lb p.ub z ∧ dot p.d (o.g z) (qn p.d h (o.g z)) ^ 2 / 2 < p.gtol ^ 2
  | .ftol => (1 / 10 ^ 10 < |o.f y| ∧ |o.f z - o.f y| / |o.f y| < p.relftol) ∨ (|o.f y| ≤ 1 / 10 ^ 10 ∧ |o.f z - o.f y| < p.relftol)
  | .xtol => sq (dist2 p.d z y) < p.absxtol
  | .maxiter => niters = p.maxiter + 2
  | .success => False

theorem bfgsTest_ok {sq : K → K} {o : Obj K} {p : Par K} {iter n : Nat} {y z h : List K} {onb : Bool} {c : Ret}
    (hb : onb = false → Inside p.d p.lb p.ub z)
    (ht : bfgsTest p iter onb (dot p.d (o.g z) (qn p.d h (o.g z))) (fdiff (o.f z) (o.f y)) (sq (dist2 p.d z y)) = some c) :
    BCodeOk sq o p n y z h c := by
  have hf : fdiff (o.f z) (o.f y) < p.relftol →
      ((1 / 10 ^ 10 < |o.f y| ∧ |o.f z - o.f y| / |o.f y| < p.relftol) ∨ (|o.f y| ≤ 1 / 10 ^ 10 ∧ |o.f z - o.f y| < p.relftol)) := by
    intro hf
    rw [fdiff] at hf
    split at hf
    · next h1 => exact Or.inl ⟨h1, hf⟩
    · next h1 => exact Or.inr ⟨not_lt.mp h1, hf⟩
  rw [bfgsTest] at ht
  split at ht
  · split at ht
    · next he =>
      injection ht with ht
      subst ht
      exact hf he
    · split at ht
      · next he =>
        injection ht with ht
        subst ht
        exact he
      · simp at ht
  · next hon =>
    split at ht
    · next he =>
      injection ht with ht
      subst ht
      rw [BCodeOk, pow_two (dot p.d _ _)]
      exact ⟨hb (by simpa using hon), he⟩
    · split at ht
      · next he =>
        injection ht with ht
        subst ht
        exact hf he
      · split at ht
        · next he =>
          split at ht
          · injection ht with ht
            subst ht
            exact he
          · simp at ht
        · simp at ht

theorem dsymv_qn {d : Nat} {h g y : List K} (hh : h.length = d * d) (hg : g.length = d) (hy : y.length = d) :
    dsymv d (-1) h g y = .ok (qn d h g) := by
  rw [dsymv_ok (-1) hh hg hy, qn]
  simp only [neg_one_mul]

theorem qn_length (d : Nat) (h g : List K) : (qn d h g).length = d := by simp [qn]

/-- The part of an iteration between the line search and the tests for convergence. -/
theorem bfgs_mid {d : Nat} {x z g gz dir w3 h : List K} (hx : x.length = d) (hz : z.length = d) (hg : g.length = d) (hgz : gz.length = d)
    (hw : w3.length = d) (hh : h.length = d * d) :
    ∃ s y h' w, (do
        let s ← dscal d (-1) x
        daxpy d 1 z s) = Except.ok s ∧ daxpy d (-1) g gz = .ok y ∧ bfgsUpdate d s y w3 h = .ok (h', w) ∧
      daxpy d 1 y g = .ok gz ∧ s.length = d ∧ y.length = d ∧ w.length = d ∧ h'.length = d * d ∧
      (1 / 10 ^ 16 < |ip d (vdiff x z) (vdiff g gz)| → ∀ i < d, ∀ j < d, Hm d h' i j = bfgs d (Hm d h) (vdiff x z) (vdiff g gz) i j) ∧
      (|ip d (vdiff x z) (vdiff g gz)| ≤ 1 / 10 ^ 16 → h' = h) := by
  have hs : ∀ i < d, gv ((List.range d).map fun i => ((List.range d).map fun i => (-1 : K) * x.getD i 0).getD i 0 + 1 * z.getD i 0) i = vdiff x z i := by
    intro i hi
    rw [gv, vdiff]; simp [hi]; ring
  have hy : ∀ i < d, gv ((List.range d).map fun i => gz.getD i 0 + (-1 : K) * g.getD i 0) i = vdiff g gz i := by
    intro i hi
    rw [gv, vdiff]; simp [hi]; ring
  obtain ⟨h', w, u1, u2, u3, u4, u5, _⟩ := bfgsUpdate_ok (d := d)
    (s := (List.range d).map fun i => ((List.range d).map fun i => (-1 : K) * x.getD i 0).getD i 0 + 1 * z.getD i 0)
    (y := (List.range d).map fun i => gz.getD i 0 + (-1 : K) * g.getD i 0) (by simp) (by simp) hw hh
  rw [ip_congr hs hy] at u4 u5
  refine ⟨_, _, h', w, by rw [dscal_ok _ hx, bind_ok, daxpy_ok _ hz (by simp)], daxpy_ok _ hg hgz, u1, ?_, by simp, by simp, u3, u2, ?_, u5⟩
  · rw [daxpy_ok _ (by simp) hg]
    congr 1
    apply List.ext_getElem
    · simp [hgz]
    · intro i h1 h2
      have hi : i < d := by simpa using h1
      simp [hi, h2]
  · intro hc i hi j hj
    rw [u4 hc i hi j hj, bfgs, bfgs, ip_congr hs hy, hs i hi, hs j hj,
      ip_congr hy (fun k hk => mulv_congr (i := k) (fun _ _ => rfl) hy), mulv_congr (i := i) (fun _ _ => rfl) hy, mulv_congr (i := j) (fun _ _ => rfl) hy]

theorem bfgsLoop_spec (sq : K → K) (zf : Nat) {o : Obj K} {p : Par K} (hp : p.WF) (ho : o.Len p.d) (hmax : 2 ≤ p.lsmax)
    {x0 h0 : List K} : ∀ fuel iter x h cur w2 w3 dir tr infos r, x.length = p.d → h.length = p.d * p.d → cur.length = p.d → w2.length = p.d →
    w3.length = p.d → dir = qn p.d h (o.g x) →
    InBox p.d p.lb p.ub x → iter ≤ p.maxiter → Run (BMoved o p) (x0, h0) infos (x, h) →
    bfgsLoop sq zf o p fuel iter x (o.f x) (o.g x) h cur dir w2 w3 (iter + 1) tr infos = .ok r →
    r.fval = o.f r.x ∧ r.grad = o.g r.x ∧ r.h.length = p.d * p.d ∧ r.niters + infos.length = iter + 1 + r.infos.length ∧
      r.niters ≤ p.maxiter + 2 ∧ Tr.Ext (InBox p.d p.lb p.ub) (perIter p zf * (r.niters - (iter + 1))) tr r.tr ∧ iter + 1 < r.niters ∧
      ∃ a i is, r.infos = i :: is ∧ Run (BMoved o p) (x0, h0) is a ∧ BMoved o p i a (r.x, r.h) ∧ BCodeOk sq o p r.niters a.1 r.x r.h r.ret := by
  intro fuel
  induction fuel with
  | zero => intro iter x h cur w2 w3 dir tr infos r _ _ _ _ _ _ _ _ _ h; simp [bfgsLoop] at h
  | succ fuel ih =>
    intro iter x h cur w2 w3 dir tr infos r hx hh hc hw2 hw3 hdir hbox hit hrun hr
    rw [bfgsLoop, dcopy_ok hx hc, bind_ok] at hr
    have hdl : dir.length = p.d := by rw [hdir]; exact qn_length _ _ _
    cases hs : bfgsSearch sq zf o p x (o.f x) (o.g x) dir w2 x tr with
    | error e => rw [hs, bind_error] at hr; simp at hr
    | ok q =>
      obtain ⟨q, dir'⟩ := q
      rw [hs, bind_ok] at hr
      have ok := bfgsSearch_spec sq zf hp ho hmax hx hdl hw2 hbox tr hs
      simp only at ok
      obtain ⟨s, y, h', w, m1, m2, m3, m4, m5, m6, m7, m8, m9, m10⟩ := bfgs_mid (z := q.newx) (gz := o.g q.newx) (dir := dir) hx ok.xlen (ho x) (ho q.newx) hw3 hh
      have hmv : BMoved o p q.info (x, h) (q.newx, h') := by
        have hbd : BDir p.d h (o.g x) dir' := by
          rcases ok.dirs with e | e
          · exact Or.inl (e.trans hdir)
          · exact Or.inr (by rw [← hdir]; exact e)
        refine ⟨ok.inBox, ok.xlen, ?_, ok.code, ?_, m9, m10⟩
        · obtain ⟨t, ht⟩ := ok.step
          exact ⟨dir', t, hbd, ht⟩
        · intro halg hi
          obtain ⟨t, h1, h2⟩ := ok.wolfe halg hi
          exact ⟨dir', t, hbd, h1, h2⟩
      dsimp only at hr
      rw [norm2diff_ok sq ok.xlen hx, bind_ok] at hr
      have m1' : (dscal p.d (-1) x >>= fun s => daxpy p.d 1 q.newx s) = .ok s := m1
      have hsc := dscal_ok (-1 : K) hx
      rw [hsc, bind_ok] at m1' hr
      rw [m1', bind_ok, ok.gradient, m2, bind_ok, m3, bind_ok] at hr
      dsimp only at hr
      rw [m4, bind_ok, dsymv_qn m8 (ho _) ok.dlen, bind_ok, dot_ok (ho _) (qn_length _ _ _), bind_ok] at hr
      classical
      rw [onBound_ok ok.xlen hp.lb hp.ub, bind_ok] at hr
      split at hr
      · next hm =>
        rw [pure_eq_ok] at hr
        injection hr with hr
        subst hr
        refine ⟨ok.val, rfl, m8, by simp only [List.length_cons]; omega, by simp only; omega, ok.ext.mono (by simp), by simp only; omega,
          (x, h), q.info, infos, rfl, hrun, hmv, ?_⟩
        simp only [BCodeOk]; omega
      · next hm =>
        rw [ok.val] at hr
        split at hr
        · next c hcode =>
          rw [pure_eq_ok] at hr
          injection hr with hr
          subst hr
          refine ⟨rfl, rfl, m8, by simp only [List.length_cons]; omega, by simp only; omega, ok.ext.mono (by simp), by simp only; omega,
            (x, h), q.info, infos, rfl, hrun, hmv, ?_⟩
          exact bfgsTest_ok (by simp) hcode
        · obtain ⟨b1, b2, b3, b4, b5, b6, b7, b8⟩ := ih (iter + 1) q.newx h' s y w _ q.tr (q.info :: infos) r ok.xlen m8 m5 m6 m7 rfl
            ok.inBox (by omega) (Run.step hrun hmv) hr
          refine ⟨b1, b2, b3, by simp only [List.length_cons] at b4; omega, b5, ok.ext.trans b6 ?_, by omega, b8⟩
          have : r.niters - (iter + 1) = (r.niters - (iter + 1 + 1)) + 1 := by omega
          rw [this, Nat.mul_add, Nat.mul_one, Nat.add_comm]

/-- C83: whenever the BFGS optimizer returns from a feasible start, the point lies in the box, value and gradient belong to it, the
objective was evaluated only inside the box, at most one iteration more than the limit was done, every iteration is as specified by
`BMoved`, and the return code is true of the last one. -/
theorem optBfgs_spec (sq : K → K) (zf : Nat) {o : Obj K} {p : Par K} (hp : p.WF) (ho : o.Len p.d) (hmax : 2 ≤ p.lsmax)
    {x h cur dir w2 w3 : List K} (hx : x.length = p.d) (hh : h.length = p.d * p.d) (hc : cur.length = p.d) (hd : dir.length = p.d)
    (hw2 : w2.length = p.d) (hw3 : w3.length = p.d) (hbox : InBox p.d p.lb p.ub x)
    {r : BRes K} (hr : optBfgs sq zf o p x h cur dir w2 w3 = .ok r) :
    InBox p.d p.lb p.ub r.x ∧ r.x.length = p.d ∧ r.fval = o.f r.x ∧ r.grad = o.g r.x ∧ r.h.length = p.d * p.d ∧
      r.niters ≤ p.maxiter + 2 ∧ r.niters = r.infos.length + 1 ∧ Run (BMoved o p) (x, h) r.infos (r.x, r.h) ∧
      (∀ y ∈ r.tr.pts, InBox p.d p.lb p.ub y) ∧ r.tr.nev = r.tr.pts.length ∧ r.tr.ngv ≤ r.tr.nev ∧
      r.tr.nev ≤ 1 + perIter p zf * (r.niters - 1) ∧
      ∃ a i is, r.infos = i :: is ∧ Run (BMoved o p) (x, h) is a ∧ BMoved o p i a (r.x, r.h) ∧ BCodeOk sq o p r.niters a.1 r.x r.h r.ret := by
  rw [optBfgs] at hr
  rw [dsymv_qn hh (ho x) hd, bind_ok] at hr
  obtain ⟨b2, b3, b4, b5, b6, ⟨L, c1, c2, c3, c4, c5, c6⟩, b7, a, i, is, d1, d2, d3, d4⟩ := bfgsLoop_spec sq zf hp ho hmax _ _ _ _ _ _ _ _ _ _ _
    hx hh hc hw2 hw3 rfl hbox (Nat.zero_le _) (Run.nil (x := (x, h))) hr
  simp only [Tr.evg] at c1 c3 c4 c5
  refine ⟨d3.inBox, d3.length, b2, b3, b4, b6, by simp only [List.length_nil] at b5; omega, by rw [d1]; exact Run.step d2 d3, ?_, ?_, by omega, by
      simp only [Nat.zero_add] at c2; omega,
    a, i, is, d1, d2, d3, d4⟩
  · intro z hz
    rw [c1] at hz
    rcases List.mem_append.mp hz with hz | hz
    · exact c6 z hz
    · have : z = x := by simpa using hz
      rw [this]; exact hbox
  · rw [c1, c3]; simp; omega

theorem bfgsSearch_total (sq : K → K) (zf : Nat) {o : Obj K} {p : Par K} (hp : p.WF) (ho : o.Len p.d) (hmax : 2 ≤ p.lsmax)
    (hz : p.alg = .strongwolfe → 68 ≤ zf) (ha : p.alg = .weakwolfe → 0 < p.alpha ∧ p.alpha < 1 / 2)
    {x dir w2 : List K} (hx : x.length = p.d) (hd : dir.length = p.d) (hw : w2.length = p.d) (hbox : InBox p.d p.lb p.ub x) (tr : Tr K) :
    (∃ q, bfgsSearch sq zf o p x (o.f x) (o.g x) dir w2 x tr = .ok q) ∨
      (p.alg = .strongwolfe ∧ bfgsSearch sq zf o p x (o.f x) (o.g x) dir w2 x tr = .error .assertFail) := by
  rw [bfgsSearch]
  split
  · obtain ⟨q, e1, _⟩ := lsBox_spec sq (o := o) hp hx (ho x) hd hx (o.f x) (o.f x) tr
    rw [e1, bind_ok]
    exact Or.inl ⟨_, rfl⟩
  · next halg =>
    rw [dcopy_ok (ho x) hw, bind_ok]
    rcases lsStrong_total sq (hz halg) hp ho hx (ho x) hd hx (o.f x) (o.f x) tr with ⟨r, h⟩ | h
    · rw [h, bind_ok]; exact Or.inl ⟨_, rfl⟩
    · rw [h, bind_error]; exact Or.inr ⟨halg, rfl⟩
  · next halg =>
    rw [dcopy_ok (ho x) hw, bind_ok]
    obtain ⟨r, dir', h, _⟩ := bfgsRounds_ok hp ho hmax (ha halg) hx hbox hd 1 tr
    exact Or.inl ⟨_, h⟩

theorem bfgsLoop_total (sq : K → K) (zf : Nat) {o : Obj K} {p : Par K} (hp : p.WF) (ho : o.Len p.d) (hmax : 2 ≤ p.lsmax)
    (hz : p.alg = .strongwolfe → 68 ≤ zf) (ha : p.alg = .weakwolfe → 0 < p.alpha ∧ p.alpha < 1 / 2) :
    ∀ fuel iter x h cur w2 w3 dir n tr infos, x.length = p.d → h.length = p.d * p.d → cur.length = p.d → w2.length = p.d →
    w3.length = p.d → dir.length = p.d → InBox p.d p.lb p.ub x → 1 ≤ fuel → p.maxiter < iter + fuel →
    (∃ r, bfgsLoop sq zf o p fuel iter x (o.f x) (o.g x) h cur dir w2 w3 n tr infos = .ok r) ∨
      (p.alg = .strongwolfe ∧ bfgsLoop sq zf o p fuel iter x (o.f x) (o.g x) h cur dir w2 w3 n tr infos = .error .assertFail) := by
  intro fuel
  induction fuel with
  | zero => intro iter x h cur w2 w3 dir n tr infos _ _ _ _ _ _ _ h; omega
  | succ fuel ih =>
    intro iter x h cur w2 w3 dir n tr infos hx hh hc hw2 hw3 hdl hbox hf1 hf
    rw [bfgsLoop, dcopy_ok hx hc, bind_ok]
    rcases bfgsSearch_total sq zf hp ho hmax hz ha hx hdl hw2 hbox tr with ⟨⟨q, dir'⟩, hs⟩ | ⟨halg, hs⟩
    · have ok := bfgsSearch_spec sq zf hp ho hmax hx hdl hw2 hbox tr hs
      simp only at ok
      obtain ⟨s, y, h', w, m1, m2, m3, m4, m5, m6, m7, m8, m9, m10⟩ := bfgs_mid (z := q.newx) (gz := o.g q.newx) (dir := dir) hx ok.xlen (ho x) (ho q.newx) hw3 hh
      rw [hs, bind_ok]
      dsimp only
      rw [norm2diff_ok sq ok.xlen hx, bind_ok]
      have m1' : (dscal p.d (-1) x >>= fun s => daxpy p.d 1 q.newx s) = .ok s := m1
      have hsc := dscal_ok (-1 : K) hx
      rw [hsc, bind_ok] at m1' ⊢
      rw [m1', bind_ok, ok.gradient, m2, bind_ok, m3, bind_ok]
      dsimp only
      rw [m4, bind_ok, dsymv_qn m8 (ho _) ok.dlen, bind_ok, dot_ok (ho _) (qn_length _ _ _), bind_ok]
      classical
      rw [onBound_ok ok.xlen hp.lb hp.ub, bind_ok]
      split
      · exact Or.inl ⟨_, rfl⟩
      · split
        · exact Or.inl ⟨_, rfl⟩
        · rw [ok.val]
          exact ih _ _ _ _ _ _ _ _ _ _ ok.xlen m8 m5 m6 m7 (qn_length _ _ _) ok.inBox (by omega) (by omega)
    · rw [hs, bind_error]
      exact Or.inr ⟨halg, rfl⟩

/-- C83: from a feasible start the BFGS optimizer always ends; with the backtracking or the weak Wolfe search (the default) it always returns. -/
theorem optBfgs_total (sq : K → K) (zf : Nat) {o : Obj K} {p : Par K} (hp : p.WF) (ho : o.Len p.d) (hmax : 2 ≤ p.lsmax)
    (hz : p.alg = .strongwolfe → 68 ≤ zf) (ha : p.alg = .weakwolfe → 0 < p.alpha ∧ p.alpha < 1 / 2)
    {x h cur dir w2 w3 : List K} (hx : x.length = p.d) (hh : h.length = p.d * p.d) (hc : cur.length = p.d) (hd : dir.length = p.d)
    (hw2 : w2.length = p.d) (hw3 : w3.length = p.d) (hbox : InBox p.d p.lb p.ub x) :
    (∃ r, optBfgs sq zf o p x h cur dir w2 w3 = .ok r) ∨
      (p.alg = .strongwolfe ∧ optBfgs sq zf o p x h cur dir w2 w3 = .error .assertFail) := by
  rw [optBfgs]
  rw [dsymv_qn hh (ho x) hd, bind_ok]
  exact bfgsLoop_total sq zf hp ho hmax hz ha _ _ _ _ _ _ _ _ _ _ _ hx hh hc hw2 hw3 (qn_length _ _ _) hbox (by omega) (by omega)

end C3.Opt

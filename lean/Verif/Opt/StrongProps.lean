/-
The strong Wolfe line search (c3opt_ls_strong_wolfe, c3opt_ls_zoom).
-/
import Verif.Opt.BoxProps

set_option linter.unusedSectionVars false

namespace C3.Opt
open Finset

variable {K : Type} [Field K] [LinearOrder K] [IsStrictOrderedRing K]

/-- Specification of an accepted strong Wolfe step of length `t`. -/
structure StrongWolfe (o : Obj K) (p : Par K) (x dir : List K) (fx dg t : K) (newx : List K) (newf : K) (grad : List K) : Prop where
  step : newx = projStep p.d p.lb p.ub x dir t
  val : newf = o.f newx
  gradient : grad = o.g newx
  armijo : newf ≤ fx + p.alpha * t * dg
  slope : |dot p.d grad dir| ≤ -p.beta * dg

/-- Value and gradient belong to the point, which is a projected step. -/
structure Consistent (o : Obj K) (p : Par K) (x dir newx : List K) (newf : K) (grad : List K) : Prop where
  step : ∃ t, newx = projStep p.d p.lb p.ub x dir t
  val : newf = o.f newx
  gradient : grad = o.g newx

theorem Consistent.inBox {o : Obj K} {p : Par K} (hp : p.WF) {x dir newx : List K} {newf : K} {grad : List K}
    (h : Consistent o p x dir newx newf grad) : InBox p.d p.lb p.ub newx := by
  obtain ⟨t, ht⟩ := h.step
  rw [ht]; exact projStep_inBox _ _ _ hp.le

theorem Consistent.length {o : Obj K} {p : Par K} {x dir newx : List K} {newf : K} {grad : List K}
    (h : Consistent o p x dir newx newf grad) : newx.length = p.d := by
  obtain ⟨t, ht⟩ := h.step
  rw [ht]; exact projStep_length _ _ _ _ _ _

/-- The step `tl` gives a sufficient decrease. -/
def Armijo (o : Obj K) (p : Par K) (x dir : List K) (fx dg tl : K) : Prop :=
  o.f (projStep p.d p.lb p.ub x dir tl) ≤ fx + p.alpha * tl * dg

/-- The zoom either accepts a strong Wolfe step or gives up, returning `tlow`; in both cases value and gradient belong to `newx`. When
it gives up, `newx` is an end of an interval of steps shorter than 1e-20 at one end of which the decrease is sufficient. -/
theorem zoom_spec {o : Obj K} {p : Par K} (hp : p.WF) (ho : o.Len p.d) {x dir : List K} (hx : x.length = p.d)
    (hdir : dir.length = p.d) (tlow fx dg : K) : ∀ fuel tl fl th newx fval grad tr z,
    newx = projStep p.d p.lb p.ub x dir tl ∨ newx = projStep p.d p.lb p.ub x dir th → fval = o.f newx → grad = o.g newx →
    Armijo o p x dir fx dg tl →
    zoom o p tlow x dir fx dg fuel tl fl th newx fval grad tr = .ok z →
    Consistent o p x dir z.newx z.fval z.grad ∧ Tr.Ext (InBox p.d p.lb p.ub) fuel tr z.tr ∧
      ((StrongWolfe o p x dir fx dg z.t z.newx z.fval z.grad ∧ z.fval < fl) ∨
       (z.t = tlow ∧ ∃ a b, Armijo o p x dir fx dg a ∧ |b - a| < 1 / 10 ^ 20 ∧
          (z.newx = projStep p.d p.lb p.ub x dir a ∨ z.newx = projStep p.d p.lb p.ub x dir b))) := by
  intro fuel
  induction fuel with
  | zero => intro tl fl th newx fval grad tr z _ _ _ _ h; simp [zoom] at h
  | succ fuel ih =>
    intro tl fl th newx fval grad tr z hc hv hg hA h
    have hlen : newx.length = p.d := by rcases hc with hc | hc <;> rw [hc] <;> exact projStep_length _ _ _ _ _ _
    rw [zoom] at h
    split at h
    · dsimp only at h
      rw [xMove_ok _ hdir hx hlen hp.lb hp.ub hp.le, bind_ok] at h
      have hin : InBox p.d p.lb p.ub (projStep p.d p.lb p.ub x dir ((tl + th) / 2)) := projStep_inBox _ _ _ hp.le
      split at h
      · obtain ⟨h1, h2, h3⟩ := ih _ _ _ _ _ _ _ _ (Or.inr rfl) rfl rfl hA h
        exact ⟨h1, (tr.evg_ext hin).trans h2 (by omega), h3⟩
      · next hf =>
        push Not at hf
        rw [dot_ok (ho _) hdir, bind_ok] at h
        split at h
        · next hs =>
          rw [pure_eq_ok] at h
          injection h with h
          subst h
          exact ⟨⟨⟨_, rfl⟩, rfl, rfl⟩, (tr.evg_ext hin).mono (by omega), Or.inl ⟨⟨rfl, rfl, rfl, hf.1, hs⟩, hf.2⟩⟩
        · obtain ⟨h1, h2, h3⟩ := ih _ _ _ _ _ _ _ _ (Or.inl rfl) rfl rfl hf.1 h
          refine ⟨h1, (tr.evg_ext hin).trans h2 (by omega), ?_⟩
          rcases h3 with ⟨a, b⟩ | a
          · exact Or.inl ⟨a, b.trans hf.2⟩
          · exact Or.inr a
    · next hs =>
      rw [pure_eq_ok] at h
      injection h with h
      subst h
      refine ⟨⟨?_, hv, hg⟩, Tr.Ext.refl _ _ _, Or.inr ⟨rfl, tl, th, hA, not_le.mp hs, hc⟩⟩
      rcases hc with hc | hc
      · exact ⟨_, hc⟩
      · exact ⟨_, hc⟩

/-- The zoom ends: every pass halves the interval. -/
theorem zoom_total {o : Obj K} {p : Par K} (hp : p.WF) (ho : o.Len p.d) {x dir : List K} (hx : x.length = p.d)
    (hdir : dir.length = p.d) (tlow fx dg : K) : ∀ n tl fl th newx fval grad tr fuel, newx.length = p.d →
    |th - tl| < 2 ^ n / 10 ^ 20 → n < fuel →
    ∃ z, zoom o p tlow x dir fx dg fuel tl fl th newx fval grad tr = .ok z := by
  intro n
  induction n with
  | zero =>
    intro tl fl th newx fval grad tr fuel hn hl hf
    obtain ⟨fuel, rfl⟩ : ∃ m, fuel = m + 1 := ⟨fuel - 1, by omega⟩
    rw [zoom, if_neg (by simpa using hl)]
    exact ⟨_, rfl⟩
  | succ n ih =>
    intro tl fl th newx fval grad tr fuel hn hl hf
    obtain ⟨fuel, rfl⟩ : ∃ m, fuel = m + 1 := ⟨fuel - 1, by omega⟩
    rw [zoom]
    have h2 : (2 : K) ^ (n + 1) / 10 ^ 20 = 2 * (2 ^ n / 10 ^ 20) := by ring
    rw [h2, abs_lt] at hl
    have hlen := projStep_length p.d p.lb p.ub x dir ((tl + th) / 2)
    split
    · dsimp only
      rw [xMove_ok _ hdir hx hn hp.lb hp.ub hp.le, bind_ok]
      split
      · exact ih _ _ _ _ _ _ _ _ hlen (by rw [abs_lt]; constructor <;> linarith) (by omega)
      · rw [dot_ok (ho _) hdir, bind_ok]
        split
        · exact ⟨_, rfl⟩
        · refine ih _ _ _ _ _ _ _ _ hlen ?_ (by omega)
          rw [abs_lt]
          split <;> constructor <;> linarith
    · exact ⟨_, rfl⟩

/-- How the strong Wolfe search can end: with an accepted step, with a step shorter than the tolerance, by giving up in an interval of
steps shorter than 1e-20, or after the maximum number of iterations with some decrease. -/
inductive StrongEnd (sq : K → K) (o : Obj K) (p : Par K) (x dir : List K) (fx dg : K) (r : Ls K) : Prop
  | accepted (t : K) (hr : r.ret = t * p.alpha) (hi : r.info = 0) (h : StrongWolfe o p x dir fx dg t r.newx r.newf r.grad)
  | short (t : K) (hr : r.ret = t * p.alpha) (hi : r.info = 0) (hs : r.newx = projStep p.d p.lb p.ub x dir t)
      (h : sq (dist2 p.d r.newx x) < p.absxtol)
  | gaveUp (a b : K) (hi : r.info = 0) (hA : Armijo o p x dir fx dg a) (hab : |b - a| < 1 / 10 ^ 20)
      (h : r.newx = projStep p.d p.lb p.ub x dir a ∨ r.newx = projStep p.d p.lb p.ub x dir b)
  | maxiter (t : K) (hi : r.info = 1) (hs : r.newx = projStep p.d p.lb p.ub x dir t) (h : Armijo o p x dir fx dg t)

theorem strongLoop_spec (sq : K → K) {o : Obj K} {p : Par K} (hp : p.WF) (ho : o.Len p.d) {x dir : List K} (hx : x.length = p.d)
    (hdir : dir.length = p.d) (fx dg : K) (zf : Nat) : ∀ fuel iter t tprev fprev newx newf grad tr r,
    newx.length = p.d → Armijo o p x dir fx dg tprev →
    (iter ≤ p.lsmax ∨ (newx = projStep p.d p.lb p.ub x dir tprev ∧ newf = o.f newx ∧ grad = o.g newx)) →
    strongLoop sq o p x dir fx dg zf fuel iter t tprev fprev newx newf grad tr = .ok r →
    Consistent o p x dir r.newx r.newf r.grad ∧ Tr.Ext (InBox p.d p.lb p.ub) (fuel + zf) tr r.tr ∧
      StrongEnd sq o p x dir fx dg r := by
  intro fuel
  induction fuel with
  | zero => intro iter t tprev fprev newx newf grad tr r _ _ _ h; simp [strongLoop] at h
  | succ fuel ih =>
    intro iter t tprev fprev newx newf grad tr r hn hA hlast h
    rw [strongLoop] at h
    split at h
    · next hit =>
      rw [xMove_ok _ hdir hx hn hp.lb hp.ub hp.le, bind_ok] at h
      dsimp only at h
      have hlen := projStep_length p.d p.lb p.ub x dir t
      have hin : InBox p.d p.lb p.ub (projStep p.d p.lb p.ub x dir t) := projStep_inBox _ _ _ hp.le
      have e1 := tr.evg_ext hin
      rw [norm2diff_ok sq hlen hx, bind_ok] at h
      split at h
      · next hs =>
        rw [pure_eq_ok] at h
        injection h with h
        subst h
        exact ⟨⟨⟨_, rfl⟩, rfl, rfl⟩, e1.mono (by omega), .short t rfl rfl rfl hs⟩
      · split at h
        · next hf =>
          have h' : ∃ z, zoom o p tprev x dir fx dg zf tprev fprev t (projStep p.d p.lb p.ub x dir t)
              (o.f (projStep p.d p.lb p.ub x dir t)) (o.g (projStep p.d p.lb p.ub x dir t))
              (tr.evg (projStep p.d p.lb p.ub x dir t)) = .ok z ∧ r = ⟨z.t * p.alpha, z.newx, z.fval, z.grad, 0, z.tr⟩ := by
            split at h
            · next hgt =>
              rw [decide_eq_false (not_lt.mpr hgt.le)] at h
              simp [cassert] at h
            · cases hz : zoom o p tprev x dir fx dg zf tprev fprev t (projStep p.d p.lb p.ub x dir t)
                (o.f (projStep p.d p.lb p.ub x dir t)) (o.g (projStep p.d p.lb p.ub x dir t))
                (tr.evg (projStep p.d p.lb p.ub x dir t)) with
              | error e => rw [hz] at h; simp at h
              | ok z =>
                rw [hz, bind_ok, pure_eq_ok] at h
                injection h with h
                exact ⟨z, rfl, h.symm⟩
          obtain ⟨z, hz, hr⟩ := h'
          obtain ⟨h1, h2, h3⟩ := zoom_spec hp ho hx hdir tprev fx dg zf _ _ _ _ _ _ _ _ (Or.inr rfl) rfl rfl hA hz
          subst hr
          refine ⟨h1, e1.trans h2 (by omega), ?_⟩
          rcases h3 with ⟨a, _⟩ | ⟨_, a, b, c, d, e⟩
          · exact .accepted z.t rfl rfl a
          · exact .gaveUp a b rfl c d e
        · next hf =>
          push Not at hf
          rw [dot_ok (ho _) hdir, bind_ok] at h
          split at h
          · next hs =>
            rw [pure_eq_ok] at h
            injection h with h
            subst h
            exact ⟨⟨⟨_, rfl⟩, rfl, rfl⟩, e1.mono (by omega), .accepted t rfl rfl ⟨rfl, rfl, rfl, hf.1, hs⟩⟩
          · split at h
            · cases hc : decide (o.f (projStep p.d p.lb p.ub x dir t) < fprev) with
              | false => rw [hc] at h; simp [cassert] at h
              | true =>
                rw [hc, cassert_of rfl, bind_ok] at h
                cases hz : zoom o p t x dir fx dg zf t (o.f (projStep p.d p.lb p.ub x dir t)) tprev (projStep p.d p.lb p.ub x dir t)
                  (o.f (projStep p.d p.lb p.ub x dir t)) (o.g (projStep p.d p.lb p.ub x dir t))
                  (tr.evg (projStep p.d p.lb p.ub x dir t)) with
                | error e => rw [hz] at h; simp at h
                | ok z =>
                  rw [hz, bind_ok, pure_eq_ok] at h
                  injection h with h
                  obtain ⟨h1, h2, h3⟩ := zoom_spec hp ho hx hdir t fx dg zf _ _ _ _ _ _ _ _ (Or.inl rfl) rfl rfl hf.1 hz
                  subst h
                  refine ⟨h1, e1.trans h2 (by omega), ?_⟩
                  rcases h3 with ⟨a, _⟩ | ⟨_, a, b, c, d, e⟩
                  · exact .accepted z.t rfl rfl a
                  · exact .gaveUp a b rfl c d e
            · obtain ⟨h1, h2, h3⟩ := ih _ _ _ _ _ _ _ _ _ hlen hf.1 (Or.inr ⟨rfl, rfl, rfl⟩) h
              exact ⟨h1, e1.trans h2 (by omega), h3⟩
    · next hit =>
      rw [pure_eq_ok] at h
      injection h with h
      subst h
      rcases hlast with hlast | ⟨a, b, c⟩
      · exact absurd hlast hit
      · exact ⟨⟨⟨_, a⟩, b, c⟩, Tr.Ext.refl _ _ _, .maxiter tprev rfl a hA⟩

theorem projStep_zero {d : Nat} {lb ub x : List K} (dir : List K) (hx : x.length = d) (h : InBox d lb ub x) :
    projStep d lb ub x dir 0 = x := by
  apply List.ext_getElem
  · rw [projStep_length, hx]
  · intro i h1 h2
    have hi : i < d := by omega
    obtain ⟨a, b⟩ := h i hi
    have e : x.getD i 0 = x[i] := by simp [h2]
    have := projStep_getD lb ub x dir 0 hi
    rw [zero_mul, add_zero, min_eq_left b, max_eq_right a, e] at this
    rw [← this]; simp [h1]

/-- C80: whenever the strong Wolfe search returns, the point lies in the box, value and gradient belong to it, all evaluations were inside
the box, and `info` tells how the search ended (`StrongEnd`). -/
theorem lsStrong_spec (sq : K → K) (zf : Nat) {o : Obj K} {p : Par K} (hp : p.WF) (ho : o.Len p.d) {x grad dir newx : List K}
    (hx : x.length = p.d) (hgrad : grad.length = p.d) (hdir : dir.length = p.d) (hn : newx.length = p.d) {fx newf : K} (tr : Tr K)
    (hfx : fx = o.f x) (hmax : 1 ≤ p.lsmax) {r : Ls K} (h : lsStrong sq zf o p x fx grad dir newx newf tr = .ok r) :
    Tr.Ext (InBox p.d p.lb p.ub) (p.lsmax + 1 + zf) tr r.tr ∧
      ((¬ (0 < p.alpha ∧ p.alpha < 1 / 2) ∧ r = ⟨0, newx, newf, grad, -1, tr⟩) ∨
       ((0 < p.alpha ∧ p.alpha < 1 / 2) ∧ ¬ InBox p.d p.lb p.ub x ∧ r = ⟨0, newx, newf, grad, -3, tr⟩) ∨
       ((0 < p.alpha ∧ p.alpha < 1 / 2) ∧ InBox p.d p.lb p.ub x ∧ 1 / 10 ^ 15 < dot p.d grad dir ∧ r = ⟨0, x, fx, grad, -4, tr⟩) ∨
       ((0 < p.alpha ∧ p.alpha < 1 / 2) ∧ InBox p.d p.lb p.ub x ∧ dot p.d grad dir ≤ 1 / 10 ^ 15 ∧
         Consistent o p x dir r.newx r.newf r.grad ∧ StrongEnd sq o p x dir fx (dot p.d grad dir) r)) := by
  rw [lsStrong] at h
  cases hb : badPar p.alpha p.beta with
  | some e =>
    obtain ⟨he, hne⟩ := badPar_some hb
    rw [hb] at h
    dsimp only at h
    rw [pure_eq_ok] at h
    injection h with h
    subst h
    exact ⟨Tr.Ext.refl _ _ _, Or.inl ⟨hne, by rw [he]⟩⟩
  | none =>
    have ha := badPar_none.mp hb
    rw [hb] at h
    dsimp only at h
    classical
    rw [violates_ok hx hp.lb hp.ub, bind_ok] at h
    by_cases hbox : InBox p.d p.lb p.ub x
    · rw [if_neg (by simpa using hbox), dot_ok hgrad hdir, bind_ok] at h
      by_cases hd : dot p.d grad dir > 1 / 10 ^ 15
      · rw [if_pos hd, copy_ok hx hn, bind_ok, pure_eq_ok] at h
        injection h with h
        subst h
        exact ⟨Tr.Ext.refl _ _ _, Or.inr (Or.inr (Or.inl ⟨ha, hbox, hd, rfl⟩))⟩
      · rw [if_neg hd] at h
        have hA : Armijo o p x dir fx (dot p.d grad dir) 0 := by
          rw [Armijo, projStep_zero dir hx hbox, hfx]; simp
        obtain ⟨h1, h2, h3⟩ := strongLoop_spec sq hp ho hx hdir fx (dot p.d grad dir) zf _ _ _ _ _ _ _ _ _ _ hn hA (Or.inl hmax) h
        exact ⟨h2, Or.inr (Or.inr (Or.inr ⟨ha, hbox, not_lt.mp hd, h1, h3⟩))⟩
    · rw [if_pos (by simpa using hbox), pure_eq_ok] at h
      injection h with h
      subst h
      exact ⟨Tr.Ext.refl _ _ _, Or.inr (Or.inl ⟨ha, hbox, rfl⟩)⟩

theorem strongLoop_total (sq : K → K) {o : Obj K} {p : Par K} (hp : p.WF) (ho : o.Len p.d) {x dir : List K} (hx : x.length = p.d)
    (hdir : dir.length = p.d) (fx dg : K) {zf : Nat} (hz : 68 ≤ zf) : ∀ fuel iter t tprev fprev newx newf grad tr,
    newx.length = p.d → 1 ≤ fuel → p.lsmax + 1 < iter + fuel → 0 ≤ t → t ≤ 1 → 0 ≤ tprev → tprev ≤ 1 →
    (∃ r, strongLoop sq o p x dir fx dg zf fuel iter t tprev fprev newx newf grad tr = .ok r) ∨
      strongLoop sq o p x dir fx dg zf fuel iter t tprev fprev newx newf grad tr = .error .assertFail := by
  intro fuel
  induction fuel with
  | zero => intro iter t tprev fprev newx newf grad tr _ h; omega
  | succ fuel ih =>
    intro iter t tprev fprev newx newf grad tr hn _ hf ht0 ht1 hp0 hp1
    rw [strongLoop]
    have hlen := projStep_length p.d p.lb p.ub x dir t
    have hpow : (1 : K) < 2 ^ 67 / 10 ^ 20 := by norm_num
    have hz1 : ∀ fl nx fv g tr', nx.length = p.d → ∃ z, zoom o p tprev x dir fx dg zf tprev fl t nx fv g tr' = .ok z :=
      fun fl nx fv g tr' hl => zoom_total hp ho hx hdir tprev fx dg 67 _ _ _ _ _ _ _ _ hl
        (lt_of_le_of_lt (by rw [abs_le]; constructor <;> linarith) hpow) (by omega)
    have hz2 : ∀ fl nx fv g tr', nx.length = p.d → ∃ z, zoom o p t x dir fx dg zf t fl tprev nx fv g tr' = .ok z :=
      fun fl nx fv g tr' hl => zoom_total hp ho hx hdir t fx dg 67 _ _ _ _ _ _ _ _ hl
        (lt_of_le_of_lt (by rw [abs_le]; constructor <;> linarith) hpow) (by omega)
    split
    · rw [xMove_ok _ hdir hx hn hp.lb hp.ub hp.le, bind_ok]
      dsimp only
      rw [norm2diff_ok sq hlen hx, bind_ok]
      split
      · exact Or.inl ⟨_, rfl⟩
      · split
        · split
          · next hgt =>
            rw [decide_eq_false (not_lt.mpr hgt.le)]
            exact Or.inr rfl
          · obtain ⟨z, e⟩ := hz1 fprev (projStep p.d p.lb p.ub x dir t) (o.f (projStep p.d p.lb p.ub x dir t))
              (o.g (projStep p.d p.lb p.ub x dir t)) (tr.evg (projStep p.d p.lb p.ub x dir t)) hlen
            rw [e]
            exact Or.inl ⟨_, rfl⟩
        · rw [dot_ok (ho _) hdir, bind_ok]
          split
          · exact Or.inl ⟨_, rfl⟩
          · split
            · cases hc : decide (o.f (projStep p.d p.lb p.ub x dir t) < fprev) with
              | false => exact Or.inr rfl
              | true =>
                obtain ⟨z, e⟩ := hz2 (o.f (projStep p.d p.lb p.ub x dir t)) (projStep p.d p.lb p.ub x dir t)
                  (o.f (projStep p.d p.lb p.ub x dir t)) (o.g (projStep p.d p.lb p.ub x dir t))
                  (tr.evg (projStep p.d p.lb p.ub x dir t)) hlen
                rw [cassert_of rfl, bind_ok, e]
                exact Or.inl ⟨_, rfl⟩
            · exact ih _ _ _ _ _ _ _ _ hlen (by omega) (by omega) (by linarith) (by linarith) ht0 ht1
    · exact Or.inl ⟨_, rfl⟩

/-- The strong Wolfe search always ends: it returns, or one of its two assertions about the trial values fails. (68 passes are enough for
every zoom.) -/
theorem lsStrong_total (sq : K → K) {zf : Nat} (hz : 68 ≤ zf) {o : Obj K} {p : Par K} (hp : p.WF) (ho : o.Len p.d)
    {x grad dir newx : List K} (hx : x.length = p.d) (hgrad : grad.length = p.d) (hdir : dir.length = p.d) (hn : newx.length = p.d)
    (fx newf : K) (tr : Tr K) :
    (∃ r, lsStrong sq zf o p x fx grad dir newx newf tr = .ok r) ∨
      lsStrong sq zf o p x fx grad dir newx newf tr = .error .assertFail := by
  rw [lsStrong]
  cases hb : badPar p.alpha p.beta with
  | some e => exact Or.inl ⟨_, rfl⟩
  | none =>
    dsimp only
    classical
    rw [violates_ok hx hp.lb hp.ub, bind_ok]
    split
    · exact Or.inl ⟨_, rfl⟩
    · rw [dot_ok hgrad hdir, bind_ok]
      split
      · rw [copy_ok hx hn]
        exact Or.inl ⟨_, rfl⟩
      · exact strongLoop_total sq hp ho hx hdir _ _ hz _ _ _ _ _ _ _ _ _ hn (by omega) (by omega) (by norm_num) (by norm_num)
          (le_refl _) zero_le_one

/-- Options of `c3opt_create(BATCHGRAD)` (strong Wolfe search) in one variable with the box `[-3,3]`. -/
def exStrong : Par ℚ := ⟨1, [-3], [3], .strongwolfe, 1 / 10000, 9 / 10, 500, 1000, 1 / 10 ^ 8, 1 / 10 ^ 8, 1 / 10 ^ 12⟩

theorem exStrong_wf : exStrong.WF := ⟨rfl, rfl, by
  intro i hi
  have : i = 0 := by simp only [exStrong] at hi; omega
  subst this; decide +kernel⟩

/-- With the default options the strong Wolfe search aborts on a strictly convex parabola: for `f(x) = 9.9995 x² - x` started at 0 along
the negative gradient the first trial step 0.1 decreases the objective, but not sufficiently, and the assertion `f_prev < *newf`
(optimization.c:1561), which sits inside `if (f_prev > *newf)`, fails. -/
theorem lsStrong_abort_counterexample : ∃ (o : Obj ℚ), o.f = (fun x => 19999 / 2000 * x.getD 0 0 ^ 2 - x.getD 0 0) ∧
    o.g = (fun x => [19999 / 1000 * x.getD 0 0 - 1]) ∧
    lsStrong (fun s => s) 68 o exStrong [0] (o.f [0]) (o.g [0]) [1] [0] 0 ⟨0, 0, []⟩ = .error .assertFail :=
  ⟨⟨fun x => 19999 / 2000 * x.getD 0 0 ^ 2 - x.getD 0 0, fun x => [19999 / 1000 * x.getD 0 0 - 1]⟩, rfl, rfl, by decide +kernel⟩

/-- When the zoom gives up (interval shorter than 1e-20) the search reports success although the objective has increased, and the
returned step length does not belong to the returned point: `f(x) = 10^25 x² - x` from 0. -/
theorem lsStrong_gaveup_counterexample : ∃ (o : Obj ℚ) (r : Ls ℚ), o.f = (fun x => 10 ^ 25 * x.getD 0 0 ^ 2 - x.getD 0 0) ∧
    o.g = (fun x => [2 * 10 ^ 25 * x.getD 0 0 - 1]) ∧
    lsStrong (fun s => s) 68 o exStrong [0] (o.f [0]) (o.g [0]) [1] [0] 0 ⟨0, 0, []⟩ = .ok r ∧ r.info = 0 ∧ o.f [0] < r.newf ∧
    r.ret = 0 ∧ r.newx ≠ [0] := by
  have key : ∀ (o : Obj ℚ), o.f = (fun x => 10 ^ 25 * x.getD 0 0 ^ 2 - x.getD 0 0) → o.g = (fun x => [2 * 10 ^ 25 * x.getD 0 0 - 1]) →
      (match lsStrong (fun s => s) 68 o exStrong [0] (o.f [0]) (o.g [0]) [1] [0] 0 ⟨0, 0, []⟩ with
        | .ok r => decide (r.info = 0 ∧ o.f [0] < r.newf ∧ r.ret = 0 ∧ r.newx ≠ [0])
        | .error _ => false) = true := by
    rintro ⟨f, g⟩ rfl rfl
    decide +kernel
  have := key ⟨fun x => 10 ^ 25 * x.getD 0 0 ^ 2 - x.getD 0 0, fun x => [2 * 10 ^ 25 * x.getD 0 0 - 1]⟩ rfl rfl
  revert this
  cases h : lsStrong (fun s => s) 68 (⟨fun x => 10 ^ 25 * x.getD 0 0 ^ 2 - x.getD 0 0, fun x => [2 * 10 ^ 25 * x.getD 0 0 - 1]⟩ : Obj ℚ)
    exStrong [0] _ _ [1] [0] 0 ⟨0, 0, []⟩ with
  | error e => intro h; simp at h
  | ok r =>
    intro hd
    have hd := of_decide_eq_true hd
    exact ⟨⟨_, _⟩, r, rfl, rfl, h, hd⟩

/-- The hypotheses of `lsStrong_spec`: the search on the parabola `x² - 2x` from 0 returns (after zooming is not needed). -/
example : exStrong.WF ∧ exObj.Len exStrong.d ∧ 1 ≤ exStrong.lsmax ∧
    ∃ r, lsStrong (fun s => s) 68 exObj exStrong [0] (exObj.f [0]) (exObj.g [0]) [2] [0] 0 ⟨0, 0, []⟩ = .ok r ∧ r.info = 0 ∧
      r.newx = [1 / 5] :=
  ⟨exStrong_wf, exObj_len, by decide, ⟨1 / 10 * (1 / 10000), [1 / 5], -9 / 25, [-8 / 5], 0, ⟨1, 1, [[1 / 5]]⟩⟩, by decide +kernel, rfl, rfl⟩

end C3.Opt

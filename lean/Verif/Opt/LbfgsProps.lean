/-
The limited memory BFGS optimizer: what the returned point, value, gradient and code mean, which pairs the directions are made of.
-/
import Verif.Opt.LbfgsAlg
import Verif.Opt.BfgsDescent

set_option linter.unusedSectionVars false

namespace C3.Opt
open Finset

variable {K : Type} [Field K] [LinearOrder K] [IsStrictOrderedRing K]

/-- Specification: the direction of limited memory BFGS with the stored pairs `es`, newest first, at a point with gradient `g`. -/
def ldir (d : Nat) (scale : Bool) (es : List (Entry K)) (g : List K) : List K :=
  (List.range d).map fun i => -mulv d (lmat d (lgam d scale es) es) (gv g) i

theorem ldir_length (d : Nat) (scale : Bool) (es : List (Entry K)) (g : List K) : (ldir d scale es g).length = d := by simp [ldir]

theorem ldir_nil {d : Nat} (scale : Bool) {g : List K} (hg : g.length = d) : ldir d scale [] g = vneg g := by
  apply List.ext_getElem
  · simp [ldir, hg]
  · intro i h1 h2
    have hi : i < g.length := by simpa using h2
    have hid : i < d := by omega
    simp [ldir, lmat, lgam, mulv, gv, hi, hid]

/-- Specification of one iteration of limited memory BFGS (`m` pairs are kept) from point and stored pairs `a` to `b`, `i` is the code of the
line search. -/
structure LMoved (o : Obj K) (p : Par K) (m : Nat) (scale : Bool) (i : Int) (a b : List K × List (Entry K)) : Prop where
  inBox : InBox p.d p.lb p.ub b.1
  length : b.1.length = p.d
  step : ∃ t, b.1 = projStep p.d p.lb p.ub a.1 (ldir p.d scale a.2 (o.g a.1)) t
  nonneg : 0 ≤ i
  wolfe : p.alg = .weakwolfe → i = 0 → ∃ t, WeakWolfe o p a.1 (ldir p.d scale a.2 (o.g a.1)) (o.f a.1)
    (dot p.d (o.g a.1) (ldir p.d scale a.2 (o.g a.1))) t b.1 (o.f b.1) (o.g b.1) ∧
    dot p.d (o.g a.1) (ldir p.d scale a.2 (o.g a.1)) ≤ 1 / 10 ^ 15
  pairs : ∃ e, b.2 = (e :: a.2).take m ∧ (∀ k < p.d, gv e.s k = vdiff a.1 b.1 k) ∧ (∀ k < p.d, gv e.y k = vdiff (o.g a.1) (o.g b.1) k) ∧
    e.rho = dot p.d e.s e.y
  curved : ∀ e ∈ b.2, dot p.d e.s e.y ≠ 0

/-- The memory after `iter` iterations. -/
structure LInv (l : LL K) (m d iter : Nat) (es : List (Entry K)) (id : Nat → Nat) (nd : Nat → Node K) : Prop where
  rep : Rep l id nd
  ents : es = (List.range l.size).map fun k => pay (nd k)
  mEq : l.m = m
  dEq : l.d = d
  size : l.size = min iter m
  iters : ∀ k < l.size, (nd k).iter = iter - 1 - k
  rho : ∀ k < l.size, (nd k).rhoinv = dot d (nd k).s (nd k).y
  ne : ∀ k < l.size, (nd k).rhoinv ≠ 0

theorem newEntry_s {d : Nat} (iter : Nat) (xn xc gn gc : List K) {i : Nat} (hi : i < d) : gv (newEntry d iter xn xc gn gc).s i = vdiff xc xn i := by
  simp [newEntry, gv, vdiff, hi]; ring

theorem newEntry_y {d : Nat} (iter : Nat) (xn xc gn gc : List K) {i : Nat} (hi : i < d) : gv (newEntry d iter xn xc gn gc).y i = vdiff gc gn i := by
  simp [newEntry, gv, vdiff, hi]; ring

/-- Storing a pair and computing the next direction. -/
theorem lbfgs_mid {l : LL K} {m d iter : Nat} {es : List (Entry K)} {id : Nat → Nat} {nd : Nat → Node K} (h : LInv l m d iter es id nd) (hm : 2 ≤ m)
    (scale : Bool) {x z g gz alpha dir : List K} (hx : x.length = d) (hz : z.length = d) (hg : g.length = d) (hgz : gz.length = d)
    (hal : alpha.length = m) (hd : dir.length = d) :
    ∃ l', insert l iter z x gz g = .ok l' ∧
      (((newEntry d iter z x gz g).rho = 0 ∧ lbfgsHg (iter + 1) m d 1 scale alpha gz dir l' = .error .ub) ∨
       ((newEntry d iter z x gz g).rho ≠ 0 ∧ ∃ st id' nd', lbfgsHg (iter + 1) m d 1 scale alpha gz dir l' = .ok st ∧ st.alpha.length = m ∧
          st.q.length = d ∧
          LInv st.l m d (iter + 1) ((newEntry d iter z x gz g :: es).take m) id' nd' ∧
          dscal d (-1) st.q = .ok (ldir d scale ((newEntry d iter z x gz g :: es).take m) gz))) := by
  obtain ⟨h1, h2, rfl, rfl, h5, h6, h7, h8⟩ := h
  obtain ⟨l', id', nd', e1, e2, e3, e4, e5, e6, e7⟩ := insert_rep h1 hm iter hz hx hgz hg
  refine ⟨l', e1, ?_⟩
  have hsz : l'.size = min (iter + 1) l.m := by rw [e5, h5]; omega
  have hpos : 0 < l'.size := by omega
  have hit : ∀ k < l'.size, (nd' k).iter = iter + 1 - 1 - k := by
    intro k hk
    by_cases hk0 : k = 0
    · have := congrArg Entry.iter e6
      rw [hk0]; exact this
    · have := congrArg Entry.iter (e7 k (by omega) hk)
      simp only [pay] at this
      rw [this, h6 (k - 1) (by omega)]; omega
  have hrho : ∀ k < l'.size, (nd' k).rhoinv = dot l.d (nd' k).s (nd' k).y := by
    intro k hk
    by_cases hk0 : k = 0
    · have a1 := congrArg Entry.rho e6
      have a2 := congrArg Entry.s e6
      have a3 := congrArg Entry.y e6
      simp only [pay] at a1 a2 a3
      rw [hk0, a1, a2, a3]; rfl
    · have a1 := congrArg Entry.rho (e7 k (by omega) hk)
      have a2 := congrArg Entry.s (e7 k (by omega) hk)
      have a3 := congrArg Entry.y (e7 k (by omega) hk)
      simp only [pay] at a1 a2 a3
      rw [a1, a2, a3]; exact h7 (k - 1) (by omega)
  have hr0 : (nd' 0).rhoinv = (newEntry l.d iter z x gz g).rho := congrArg Entry.rho e6
  have hes : (newEntry l.d iter z x gz g :: es).take l.m = (List.range l'.size).map fun k => pay (nd' k) := by
    rw [h2]
    apply List.ext_getElem?
    intro k
    by_cases hk : k < l'.size
    · rw [List.getElem?_take_of_lt (by omega)]
      rw [List.getElem?_map, List.getElem?_range hk, Option.map_some]
      by_cases hk0 : k = 0
      · rw [hk0, List.getElem?_cons_zero, e6]
      · obtain ⟨j, rfl⟩ : ∃ j, k = j + 1 := ⟨k - 1, by omega⟩
        rw [List.getElem?_cons_succ, List.getElem?_map, List.getElem?_range (by omega), Option.map_some, e7 _ (by omega) hk, Nat.add_sub_cancel]
    · rw [List.getElem?_eq_none (by simp; omega), List.getElem?_eq_none (by simp; omega)]
  by_cases h0 : (newEntry l.d iter z x gz g).rho = 0
  · refine Or.inl ⟨h0, ?_⟩
    have := lbfgsHg_zero e2 e3 hsz hpos (by rw [hit 0 hpos]; omega) (by rw [hr0]; exact h0) scale (alpha := alpha) (g := gz) (q := dir)
      (by rw [e4]; exact hgz) (by rw [e4]; exact hd)
    rwa [e4] at this
  · refine Or.inr ⟨h0, ?_⟩
    have hne : ∀ k < l'.size, (nd' k).rhoinv ≠ 0 := by
      intro k hk
      by_cases hk0 : k = 0
      · rw [hk0, hr0]; exact h0
      · have a1 := congrArg Entry.rho (e7 k (by omega) hk)
        simp only [pay] at a1
        rw [a1]; exact h8 (k - 1) (by omega)
    obtain ⟨st, f1, f2, f3, f4⟩ := lbfgsHg_ok e2 e3 hsz hpos hit (by rw [e4]; exact hrho) hne scale (alpha := alpha) (g := gz) (q := dir)
      hal (by rw [e4]; exact hgz) (by rw [e4]; exact hd)
    rw [e4] at f1 f4
    have hql : st.q.length = l.d := by rw [f4]; simp
    refine ⟨st, id', nd', f1, f3, hql, ?_, ?_⟩
    · have hs : st.l.size = l'.size := f2.2.2.1
      refine ⟨f2.rep e2, by rw [hs]; exact hes, f2.1.trans e3, f2.2.1.trans e4, by rw [hs]; exact hsz, ?_, ?_, ?_⟩
      · rw [hs]; exact hit
      · rw [hs]; exact hrho
      · rw [hs]; exact hne
    · rw [dscal_ok _ hql, f4, hes, ldir]
      congr 1
      apply List.map_congr_left
      intro i hi
      have : i < l.d := List.mem_range.mp hi
      simp [this]

/-- What one line search of the limited memory optimizer gives, started at a feasible point. -/
theorem lbfgsLs_spec (sq : K → K) (zf : Nat) {o : Obj K} {p : Par K} (hp : p.WF) (ho : o.Len p.d) (hmax : 2 ≤ p.lsmax)
    {x dir w2 : List K} (hx : x.length = p.d) (hd : dir.length = p.d) (hw : w2.length = p.d) (hbox : InBox p.d p.lb p.ub x) (tr : Tr K)
    {r : Ls K} (h : lbfgsLs sq zf o p x (o.f x) (o.g x) dir w2 x tr = .ok r) (hi : -1 < r.info) : SearchOk o p zf x dir tr r dir := by
  rw [lbfgsLs] at h
  split at h
  · next halg =>
    obtain ⟨q, e1, e2, e3, e4⟩ := lsBox_spec sq (o := o) hp hx (ho x) hd hx (o.f x) (o.f x) tr
    rw [e1, bind_ok, pure_eq_ok] at h
    injection h with h
    subst h
    have hnw : ¬ p.alg = .weakwolfe := by rw [halg]; simp
    rcases e4 with ⟨_, b⟩ | ⟨_, a, _⟩ | ⟨_, _, k, e5, e6, e7, _⟩
    · rw [b] at hi
      simp at hi
    · exact absurd hbox a
    · have hin : InBox p.d p.lb p.ub q.newx := by rw [e6]; exact projStep_inBox _ _ _ hp.le
      exact ⟨by rw [e6]; exact projStep_length _ _ _ _ _ _, hd, e7, rfl, e2.trans (q.tr.evg_ext hin) (by rw [perIter]; omega), hin, ⟨_, e6⟩, Or.inl rfl,
        fun h => absurd h hnw, fun h => absurd h hnw⟩
  · next halg =>
    have hnw : ¬ p.alg = .weakwolfe := by rw [halg]; simp
    rw [dcopy_ok (ho x) hw, bind_ok] at h
    obtain ⟨e2, e4⟩ := lsStrong_spec sq zf hp ho hx (ho x) hd hx tr rfl (by omega) h
    rcases e4 with ⟨_, b⟩ | ⟨_, a, _⟩ | ⟨_, _, _, b⟩ | ⟨a, _, _, e5, _⟩
    · rw [b] at hi
      simp at hi
    · exact absurd hbox a
    · rw [b] at hi
      simp at hi
    · exact ⟨e5.length, hd, e5.val, e5.gradient, e2.mono (by rw [perIter]; omega), e5.inBox hp, e5.step, Or.inl rfl, fun h => absurd h hnw,
        fun h => absurd h hnw⟩
  · next halg =>
    rw [dcopy_ok (ho x) hw, bind_ok] at h
    obtain ⟨q, h1, h2, h3⟩ := lsWolfe_spec (o := o) hp ho hx (ho x) hd hx (o.f x) (o.f x) tr hmax
    rw [h1] at h
    injection h with h
    subst h
    rcases h3 with ⟨_, b⟩ | ⟨_, a, _⟩ | ⟨_, _, _, b⟩ | ⟨_, _, hdg, e⟩
    · rw [b] at hi
      simp at hi
    · exact absurd hbox a
    · rw [b] at hi
      simp at hi
    · rcases e with ⟨i0, t, _, hw⟩ | ⟨i1, _, v, g, t, _, hs⟩
      · refine ⟨by rw [hw.step]; exact projStep_length _ _ _ _ _ _, hd, hw.val, hw.gradient, h2.mono (by rw [perIter]; omega),
          by rw [hw.step]; exact projStep_inBox _ _ _ hp.le, ⟨t, hw.step⟩, Or.inl rfl, fun _ => Or.inl i0, fun _ _ => ⟨t, ?_, hdg⟩⟩
        have := hw
        rw [hw.val, hw.gradient] at this
        exact this
      · exact ⟨by rw [hs]; exact projStep_length _ _ _ _ _ _, hd, v, g, h2.mono (by rw [perIter]; omega), by rw [hs]; exact projStep_inBox _ _ _ hp.le,
          ⟨t, hs⟩, Or.inl rfl, fun _ => Or.inr i1, fun _ h => by omega⟩

/-- The line search either returns what it should or stops the program. -/
theorem lbfgsSearch_spec (sq : K → K) (zf : Nat) {o : Obj K} {p : Par K} (hp : p.WF) (ho : o.Len p.d) (hmax : 2 ≤ p.lsmax)
    (hz : p.alg = .strongwolfe → 68 ≤ zf)
    {x dir w2 : List K} (hx : x.length = p.d) (hd : dir.length = p.d) (hw : w2.length = p.d) (hbox : InBox p.d p.lb p.ub x) (tr : Tr K) :
    lbfgsSearch sq zf o p x (o.f x) (o.g x) dir w2 x tr = .error .assertFail ∨
      ∃ r, lbfgsSearch sq zf o p x (o.f x) (o.g x) dir w2 x tr = .ok r ∧ SearchOk o p zf x dir tr r dir ∧ 0 ≤ r.info := by
  have ht : (∃ r, lbfgsLs sq zf o p x (o.f x) (o.g x) dir w2 x tr = .ok r) ∨ lbfgsLs sq zf o p x (o.f x) (o.g x) dir w2 x tr = .error .assertFail := by
    rw [lbfgsLs]
    split
    · obtain ⟨q, e1, _⟩ := lsBox_spec sq (o := o) hp hx (ho x) hd hx (o.f x) (o.f x) tr
      rw [e1, bind_ok]
      exact Or.inl ⟨_, rfl⟩
    · next halg =>
      rw [dcopy_ok (ho x) hw, bind_ok]
      exact lsStrong_total sq (hz halg) hp ho hx (ho x) hd hx (o.f x) (o.f x) tr
    · rw [dcopy_ok (ho x) hw, bind_ok]
      obtain ⟨q, h1, _⟩ := lsWolfe_spec (o := o) hp ho hx (ho x) hd hx (o.f x) (o.f x) tr hmax
      exact Or.inl ⟨q, h1⟩
  rw [lbfgsSearch]
  rcases ht with ⟨r, hr⟩ | hr
  · rw [hr, bind_ok]
    by_cases hi : -1 < r.info
    · rw [cassert_of (by simpa using hi), bind_ok]
      exact Or.inr ⟨r, rfl, lbfgsLs_spec sq zf hp ho hmax hx hd hw hbox tr hr hi, by omega⟩
    · rw [cassert, if_neg (by simpa using hi), bind_error]
      exact Or.inl rfl
  · rw [hr, bind_error]
    exact Or.inl rfl

/-- Specification of the return code: `y` is the last iterate but one, `z` and `es` the final point and stored pairs. -/
def LCodeOk (sq : K → K) (o : Obj K) (p : Par K) (scale : Bool) (niters : Nat) (y z : List K) (es : List (Entry K)) : Ret → Prop
  | .gtol => Inside p.d p.lb p.ub z ∧ dot p.d (o.g z) (ldir p.d scale es (o.g z)) ^ 2 / 2 < p.gtol ^ 2
  | .ftol => (1 / 10 ^ 10 < |o.f y| ∧ |o.f z - o.f y| / |o.f y| < p.relftol) ∨ (|o.f y| ≤ 1 / 10 ^ 10 ∧ |o.f z - o.f y| < p.relftol)
  | .xtol => sq (dist2 p.d z y) < p.absxtol
  | .maxiter => niters = p.maxiter + 2
  | .success => False

theorem lbfgsTest_ok {sq : K → K} {o : Obj K} {p : Par K} {scale : Bool} {n : Nat} {y z : List K} {es : List (Entry K)} {onb : Bool} {c : Ret}
    (hb : onb = false → Inside p.d p.lb p.ub z)
    (ht : lbfgsTest p onb (dot p.d (o.g z) (ldir p.d scale es (o.g z))) (fdiff (o.f z) (o.f y)) (sq (dist2 p.d z y)) = some c) :
    LCodeOk sq o p scale n y z es c := by
  have hf : fdiff (o.f z) (o.f y) < p.relftol →
      ((1 / 10 ^ 10 < |o.f y| ∧ |o.f z - o.f y| / |o.f y| < p.relftol) ∨ (|o.f y| ≤ 1 / 10 ^ 10 ∧ |o.f z - o.f y| < p.relftol)) := by
    intro hf
    rw [fdiff] at hf
    split at hf
    · next h1 => exact Or.inl ⟨h1, hf⟩
    · next h1 => exact Or.inr ⟨not_lt.mp h1, hf⟩
  rw [lbfgsTest] at ht
  split at ht
  · split at ht
    · next he =>
      injection ht with ht
      subst ht
      exact hf he
    · split at ht
      · next he =>
        injection ht with ht
        subst ht
        exact he
      · simp at ht
  · next hon =>
    split at ht
    · next he =>
      injection ht with ht
      subst ht
      rw [LCodeOk, pow_two (dot p.d _ _)]
      exact ⟨hb (by simpa using hon), he⟩
    · split at ht
      · next he =>
        injection ht with ht
        subst ht
        exact hf he
      · split at ht
        · next he =>
          injection ht with ht
          subst ht
          exact he
        · simp at ht

/-- What a run of the loop gives if it returns. -/
structure LEnd (sq : K → K) (zf : Nat) (o : Obj K) (p : Par K) (m : Nat) (scale : Bool) (x0 : List K) (iter : Nat) (len : Nat) (tr : Tr K) (r : Res K) :
    Prop where
  val : r.fval = o.f r.x
  gradient : r.grad = o.g r.x
  count : r.niters + len = iter + 1 + r.infos.length
  limit : r.niters ≤ p.maxiter + 2
  ext : Tr.Ext (InBox p.d p.lb p.ub) (perIter p zf * (r.niters - (iter + 1))) tr r.tr
  more : iter + 1 < r.niters
  run : ∃ a i is es, r.infos = i :: is ∧ Run (LMoved o p m scale) (x0, []) is a ∧ LMoved o p m scale i a (r.x, es) ∧
    LCodeOk sq o p scale r.niters a.1 r.x es r.ret

theorem lbfgsLoop_spec (sq : K → K) (zf : Nat) {o : Obj K} {p : Par K} (hp : p.WF) (ho : o.Len p.d) (hmax : 2 ≤ p.lsmax)
    (hz : p.alg = .strongwolfe → 68 ≤ zf) {m : Nat} (hm : 2 ≤ m) (scale : Bool) {x0 : List K} :
    ∀ fuel iter x l es id nd alpha cur dir w2 tr infos, x.length = p.d → alpha.length = m → cur.length = p.d → w2.length = p.d →
    dir = ldir p.d scale es (o.g x) → LInv l m p.d iter es id nd →
    InBox p.d p.lb p.ub x → iter ≤ p.maxiter → 1 ≤ fuel → p.maxiter < iter + fuel → Run (LMoved o p m scale) (x0, []) infos (x, es) →
    lbfgsLoop sq zf o p m scale fuel iter x (o.f x) (o.g x) l alpha cur dir w2 (iter + 1) tr infos = .error .assertFail ∨
    lbfgsLoop sq zf o p m scale fuel iter x (o.f x) (o.g x) l alpha cur dir w2 (iter + 1) tr infos = .error .ub ∨
    ∃ r, lbfgsLoop sq zf o p m scale fuel iter x (o.f x) (o.g x) l alpha cur dir w2 (iter + 1) tr infos = .ok r ∧
      LEnd sq zf o p m scale x0 iter infos.length tr r := by
  intro fuel
  induction fuel with
  | zero => intro iter x l es id nd alpha cur dir w2 tr infos _ _ _ _ _ _ _ _ h; omega
  | succ fuel ih =>
    intro iter x l es id nd alpha cur dir w2 tr infos hx hal hc hw2 hdir hinv hbox hit hf1 hf hrun
    have hdl : dir.length = p.d := by rw [hdir]; exact ldir_length _ _ _ _
    rw [lbfgsLoop, dcopy_ok hx hc, bind_ok]
    rcases lbfgsSearch_spec sq zf hp ho hmax hz hx hdl hw2 hbox tr with hs | ⟨q, hs, ok, hi⟩
    · rw [hs, bind_error]; exact Or.inl rfl
    · rw [hs, bind_ok, ok.gradient]
      obtain ⟨l', i1, i2⟩ := lbfgs_mid hinv hm scale (z := q.newx) (x := x) (g := o.g x) (gz := o.g q.newx) (alpha := alpha) (dir := dir) hx ok.xlen
        (ho x) (ho q.newx) hal hdl
      rw [i1, bind_ok, dcopy_ok (ho q.newx) (ho x), bind_ok]
      rcases i2 with ⟨_, i2⟩ | ⟨hne, st, id', nd', j1, j2, j3, j4, j5⟩
      · rw [i2, bind_error]; exact Or.inr (Or.inl rfl)
      · rw [j1, bind_ok, j5, bind_ok, dot_ok (ho _) (ldir_length _ _ _ _), bind_ok]
        classical
        rw [onBound_ok ok.xlen hp.lb hp.ub, bind_ok, norm2diff_ok sq ok.xlen hx, bind_ok]
        have hmv : LMoved o p m scale q.info (x, es) (q.newx, (newEntry p.d iter q.newx x (o.g q.newx) (o.g x) :: es).take m) := by
          refine ⟨ok.inBox, ok.xlen, by rw [← hdir]; exact ok.step, hi, ?_, ⟨_, rfl, fun k hk => newEntry_s _ _ _ _ _ hk, fun k hk => newEntry_y _ _ _ _ _ hk, rfl⟩, ?_⟩
          · intro h1 h2
            have := ok.wolfe h1 h2
            rw [hdir] at this
            exact this
          · intro e he
            rw [j4.ents] at he
            obtain ⟨k, hk, rfl⟩ := List.mem_map.mp he
            have hk := List.mem_range.mp hk
            have h1 := j4.rho k hk
            have h2 := j4.ne k hk
            rw [h1] at h2
            exact h2
        split
        · next hmx =>
          refine Or.inr (Or.inr ⟨_, rfl, ok.val, rfl, by simp only [List.length_cons]; omega, by simp only; omega, ok.ext.mono (by simp), by simp only; omega,
            (x, es), q.info, infos, _, rfl, hrun, hmv, ?_⟩)
          simp only [LCodeOk]; omega
        · next hmx =>
          rw [ok.val]
          split
          · next c hcode =>
            exact Or.inr (Or.inr ⟨_, rfl, rfl, rfl, by simp only [List.length_cons]; omega, by simp only; omega, ok.ext.mono (by simp), by simp only; omega,
              (x, es), q.info, infos, _, rfl, hrun, hmv, lbfgsTest_ok (by simp) hcode⟩)
          · rcases ih (iter + 1) q.newx st.l _ id' nd' st.alpha x _ (o.g q.newx) q.tr (q.info :: infos) ok.xlen j2 hx (ho _) rfl j4 ok.inBox (by omega)
              (by omega) (by omega) (Run.step hrun hmv) with h | h | ⟨r, h, e⟩
            · exact Or.inl h
            · exact Or.inr (Or.inl h)
            · refine Or.inr (Or.inr ⟨r, h, e.val, e.gradient, ?_, e.limit, ok.ext.trans e.ext ?_, ?_, e.run⟩)
              · have := e.count
                simp only [List.length_cons] at this
                omega
              · have := e.more
                have : r.niters - (iter + 1) = (r.niters - (iter + 1 + 1)) + 1 := by omega
                rw [this, Nat.mul_add, Nat.mul_one, Nat.add_comm]
              · have := e.more
                omega

/-- C85: from a feasible start and with at least two stored pairs the limited memory BFGS optimizer always ends. It is stopped by a failed
assertion, or divides by an inner product that is zero, or returns; then the point lies in the box, value and gradient belong to it, the
objective was evaluated only inside the box, at most one iteration more than the limit was done, every iteration is as specified by `LMoved`
(projected step along minus the matrix made of the `m` latest pairs times the gradient), and the return code is true of the last one. -/
theorem optLbfgs_spec (sq : K → K) (zf : Nat) {o : Obj K} {p : Par K} (hp : p.WF) (ho : o.Len p.d) (hmax : 2 ≤ p.lsmax)
    (hz : p.alg = .strongwolfe → 68 ≤ zf) {m : Nat} (hm : 2 ≤ m) (scale : Bool) {x cur dir w2 : List K} (hx : x.length = p.d)
    (hc : cur.length = p.d) (hd : dir.length = p.d) (hw2 : w2.length = p.d) (hbox : InBox p.d p.lb p.ub x) :
    optLbfgs sq zf o p m scale x cur dir w2 = .error .assertFail ∨ optLbfgs sq zf o p m scale x cur dir w2 = .error .ub ∨
    ∃ r, optLbfgs sq zf o p m scale x cur dir w2 = .ok r ∧
      InBox p.d p.lb p.ub r.x ∧ r.x.length = p.d ∧ r.fval = o.f r.x ∧ r.grad = o.g r.x ∧
      r.niters ≤ p.maxiter + 2 ∧ r.niters = r.infos.length + 1 ∧
      (∀ y ∈ r.tr.pts, InBox p.d p.lb p.ub y) ∧ r.tr.nev = r.tr.pts.length ∧ r.tr.ngv ≤ r.tr.nev ∧
      r.tr.nev ≤ 1 + perIter p zf * (r.niters - 1) ∧
      ∃ a i is es, r.infos = i :: is ∧ Run (LMoved o p m scale) (x, []) is a ∧ LMoved o p m scale i a (r.x, es) ∧
        LCodeOk sq o p scale r.niters a.1 r.x es r.ret := by
  rw [optLbfgs]
  rw [dcopy_ok (ho x) hd, bind_ok, neg_copy_ok (ho x), bind_ok]
  have hinv : LInv (LL.alloc m p.d : LL K) m p.d 0 [] (fun k => k) (fun _ => ⟨0, [], [], 0, none, none⟩) :=
    ⟨Rep.alloc m p.d (by omega) _ _, rfl, rfl, rfl, by simp [LL.alloc], fun k hk => by simp [LL.alloc] at hk, fun k hk => by simp [LL.alloc] at hk,
      fun k hk => by simp [LL.alloc] at hk⟩
  rcases lbfgsLoop_spec sq zf hp ho hmax hz hm scale (p.maxiter + 1) 0 x _ [] _ _ (List.replicate m 0) cur (vneg (o.g x)) w2
    ((Tr.mk 0 0 []).evg x) [] hx (by simp) hc hw2 (ldir_nil scale (ho x)).symm hinv hbox (Nat.zero_le _) (by omega) (by omega) Run.nil with h | h | ⟨r, h, e⟩
  · exact Or.inl h
  · exact Or.inr (Or.inl h)
  · refine Or.inr (Or.inr ⟨r, h, ?_⟩)
    obtain ⟨b2, b3, b5, b6, ⟨L, c1, c2, c3, c4, c5, c6⟩, b7, a, i, is, es, d1, d2, d3, d4⟩ := e
    simp only [Tr.evg] at c1 c3 c4 c5
    refine ⟨d3.inBox, d3.length, b2, b3, b6, by simp only [List.length_nil] at b5; omega, ?_, ?_, by omega, by
      simp only [Nat.zero_add] at c2; omega, a, i, is, es, d1, d2, d3, d4⟩
    · intro z hz
      rw [c1] at hz
      rcases List.mem_append.mp hz with hz | hz
      · exact c6 z hz
      · have : z = x := by simpa using hz
        rw [this]; exact hbox
    · rw [c1, c3]; simp; omega

theorem dot_ldir (d : Nat) (scale : Bool) (es : List (Entry K)) (g : List K) :
    dot d g (ldir d scale es g) = -ip d (gv g) (mulv d (lmat d (lgam d scale es) es) (gv g)) := by
  rw [dot_ip, ip_congr (u := gv g) (u' := gv g) (v' := fun i => -mulv d (lmat d (lgam d scale es) es) (gv g) i) (fun _ _ => rfl)
    (fun i hi => by simp [gv, ldir, hi]), ip, ip, ← sum_neg_distrib]
  exact sum_congr rfl fun _ _ => by ring

/-- C85: while all stored pairs have positive inner product, the direction is one of descent unless the gradient is zero. -/
theorem ldir_descent {d : Nat} (scale : Bool) {es : List (Entry K)} (g : List K) (h : ∀ e ∈ es, 0 < dot d e.s e.y) (hr : ∀ e ∈ es, e.rho = dot d e.s e.y) :
    dot d g (ldir d scale es g) ≤ 0 ∧ ((∃ i < d, g.getD i 0 ≠ 0) → dot d g (ldir d scale es g) < 0) := by
  have hp := lmat_posDef (d := d) (gam := lgam d scale es) (lgam_pos fun e he => by rw [hr e he]; exact h e he) h
  rw [dot_ldir]
  by_cases hg : ∃ i < d, g.getD i 0 ≠ 0
  · have := hp (gv g) hg
    exact ⟨by linarith, fun _ => by linarith⟩
  · refine ⟨?_, fun h => absurd h hg⟩
    push Not at hg
    rw [ip, sum_eq_zero, neg_zero]
    intro i hi
    rw [gv, hg i (mem_range.mp hi), zero_mul]

/-- C85: along a run whose searches succeed and whose iterates stay strictly inside the box, all stored pairs have positive inner product
(so the matrix is positive definite and the directions are ones of descent), and the objective does not increase. -/
theorem run_lposDef {o : Obj K} {p : Par K} {m : Nat} {scale : Bool} (halg : p.alg = .weakwolfe) (ha : 0 < p.alpha) (hb : p.beta ≤ 1) {x : List K}
    {b : List K × List (Entry K)} {is : List Int}
    (hr : Run (fun i a b => LMoved o p m scale i a b ∧ i = 0 ∧ Inside p.d p.lb p.ub b.1) (x, []) is b) :
    (∀ e ∈ b.2, 0 < dot p.d e.s e.y ∧ e.rho = dot p.d e.s e.y) ∧ PosDef p.d (lmat p.d (lgam p.d scale b.2) b.2) ∧ o.f b.1 ≤ o.f x := by
  have key : (∀ e ∈ b.2, 0 < dot p.d e.s e.y ∧ e.rho = dot p.d e.s e.y) ∧ o.f b.1 ≤ o.f x := by
    induction hr with
    | nil => exact ⟨fun e he => by simp at he, le_refl _⟩
    | @step is i a b h s ih =>
      obtain ⟨s1, s2, s3⟩ := s
      obtain ⟨t, hw, _⟩ := s1.wolfe halg s2
      have hdesc := ldir_descent scale (o.g a.1) (fun e he => (ih.1 e he).1) (fun e he => (ih.1 e he).2)
      obtain ⟨dir, hdir⟩ : ∃ dir, dir = ldir p.d scale a.2 (o.g a.1) := ⟨_, rfl⟩
      rw [← hdir] at hw hdesc
      have hst : ∀ i < p.d, b.1.getD i 0 = a.1.getD i 0 + t * dir.getD i 0 := by
        intro i hi
        have e := hw.step
        rw [e] at s3 ⊢
        exact projStep_inside s3 i hi
      have hneg : p.alpha * t * dot p.d (o.g a.1) dir ≤ 0 :=
        mul_nonpos_of_nonneg_of_nonpos (mul_pos ha hw.pos).le hdesc.1
      refine ⟨?_, by linarith [hw.armijo, ih.2]⟩
      have hsty : 0 ≤ ip p.d (vdiff a.1 b.1) (vdiff (o.g a.1) (o.g b.1)) := by
        have e1 : ip p.d (vdiff a.1 b.1) (vdiff (o.g a.1) (o.g b.1)) = t * (dot p.d (o.g b.1) dir - dot p.d (o.g a.1) dir) := by
          rw [dot, dot, ← sum_sub_distrib, mul_sum, ip]
          refine sum_congr rfl fun i hi => ?_
          rw [vdiff, vdiff, hst i (mem_range.mp hi)]; ring
        rw [e1]
        refine mul_nonneg hw.pos.le ?_
        have h1 := hw.slope
        have h2 : dot p.d (o.g a.1) dir ≤ p.beta * dot p.d (o.g a.1) dir := by nlinarith [hdesc.1]
        linarith
      obtain ⟨e0, p1, p2, p3, p4⟩ := s1.pairs
      intro e he
      have hne := s1.curved e he
      rw [p1] at he
      rcases List.mem_cons.mp (List.mem_of_mem_take he) with rfl | he
      · refine ⟨lt_of_le_of_ne ?_ (Ne.symm hne), p4⟩
        rw [dot_ip, ip_congr p2 p3]; exact hsty
      · exact ih.1 e he
  refine ⟨key.1, lmat_posDef (lgam_pos fun e he => ?_) fun e he => (key.1 e he).1, key.2⟩
  rw [(key.1 e he).2]; exact (key.1 e he).1

/-- C85: a start with gradient zero divides zero by zero: the change of gradient and the step vanish (in C the direction becomes NaN). -/
theorem lbfgs_stationary_counterexample : optLbfgs (fun s => s) 0 exObj exPar 2 true [1] [0] [0] [0] = .error .ub := by decide +kernel

/-- C85: an infeasible start stops the program by an assertion. -/
theorem lbfgs_infeasible_actual : optLbfgs (fun s => s) 0 exObj exPar 2 true [5] [0] [0] [0] = .error .assertFail := by decide +kernel

/-- C85: a single stored pair (`c3opt_set_nvectors_store(opt,1)`) dereferences NULL in the second iteration, none in the first. -/
theorem lbfgs_store_counterexample :
    optLbfgs (fun s => s) 0 exObj exPar 0 true [0] [0] [0] [0] = .error .null ∧
    optLbfgs (fun s => s) 0 ⟨fun x => x.getD 0 0 ^ 4, fun x => [4 * x.getD 0 0 ^ 3]⟩ exPar 1 true [1] [0] [0] [0] = .error .null := by
  constructor <;> decide +kernel

/-- The hypotheses of `optLbfgs_spec`. -/
example : exPar.WF ∧ exObj.Len exPar.d ∧ 2 ≤ exPar.lsmax ∧ InBox exPar.d exPar.lb exPar.ub [0] ∧
    optLbfgs (fun s => s) 0 exObj exPar 2 true [0] [0] [0] [0] =
      .ok ⟨[1], -1, [0], .gtol, 2, ⟨4, 2, [[1], [1], [2], [0]]⟩, [0]⟩ :=
  ⟨exPar_wf, exObj_len, by decide, fun i hi => by
    have : i = 0 := by simp only [exPar] at hi; omega
    subst this; decide +kernel, by decide +kernel⟩

end C3.Opt

/-
Standalone gradient descent and projected gradient descent: what the return codes mean, monotone decrease, feasibility, cost.
-/
import Verif.Opt.StandLs
import Verif.Opt.BfgsProps

set_option linter.unusedSectionVars false

namespace C3.Opt
open Finset

variable {K : Type} [Field K] [LinearOrder K] [IsStrictOrderedRing K]

/-- `n` consecutive moves. -/
inductive Steps {α : Type} (R : α → α → Prop) : Nat → α → α → Prop
  | zero (a : α) : Steps R 0 a a
  | succ {n : Nat} {a b c : α} : Steps R n a b → R b c → Steps R (n + 1) a c

theorem Steps.mono {α : Type} {R : α → α → Prop} {V : α → K} (hV : ∀ a b, R a b → V b ≤ V a) {n : Nat} {a b : α} (h : Steps R n a b) : V b ≤ V a := by
  induction h with
  | zero => exact le_rfl
  | succ _ h2 ih => exact (hV _ _ h2).trans ih

/-- The callbacks leave `d` numbers in the gradient buffer. -/
def Cb.Len (c : Cb K) (d : Nat) : Prop := ∀ x, (c.g x).2.length = d

/-- An accepted move of a descent method: from `y` to `step y (beta^k)`, the first of the trial points with the decrease
`alpha*beta^k*|grad|^2`, within the budget of the line search. -/
def Accepted (c : Cb K) (p : StPar K) (step : List K → K → List K) (y z : List K) : Prop :=
  ∃ k, (k = 0 ∨ k + 2 ≤ p.maxsub) ∧ z = step y (p.beta ^ k) ∧ c.f z ≤ c.f y - p.alpha * p.beta ^ k * dot p.d (c.g y).2 (c.g y).2 ∧
    ∀ j < k, c.f y - p.alpha * p.beta ^ j * dot p.d (c.g y).2 (c.g y).2 < c.f (step y (p.beta ^ j))

/-- The step `y - t*grad(y)`. -/
def gradStep (c : Cb K) (d : Nat) (y : List K) (t : K) : List K := freeStep d y (vneg (c.g y).2) t

/-- The step `y - t*grad(y)`, projected on the box. -/
def gradProj (c : Cb K) (d : Nat) (lb ub : List K) (y : List K) (t : K) : List K := projStep d lb ub y (vneg (c.g y).2) t

/-- The line search used up its budget at `y`: no trial point gave sufficient decrease and `z` is the last of them. -/
def Stuck (c : Cb K) (p : StPar K) (step : List K → K → List K) (y z : List K) : Prop :=
  ∃ k, p.maxsub ≤ k + 2 ∧ z = step y (p.beta ^ k) ∧
    ∀ j ≤ k, c.f y - p.alpha * p.beta ^ j * dot p.d (c.g y).2 (c.g y).2 < c.f (step y (p.beta ^ j))

theorem decr_iff (c : Cb K) (p : StPar K) (y z : List K) (t : K) :
    Decr c.f (c.f y) (dot p.d (c.g y).2 (vneg (c.g y).2)) p.alpha t z ↔ c.f z ≤ c.f y - p.alpha * t * dot p.d (c.g y).2 (c.g y).2 := by
  rw [Decr, dot_vneg, mul_neg, ← sub_eq_add_neg]

theorem searched_cases {c : Cb K} {p : StPar K} {step : List K → K → List K} {y : List K} {pts0 : List (List K)} {k : Nat} {r : BtR K}
    (h : Searched c.f (step y) (c.f y) (dot p.d (c.g y).2 (vneg (c.g y).2)) p.alpha p.beta p.maxsub pts0 k r) :
    (r.info = 0 ∧ Accepted c p step y r.newx) ∨ (r.info = 1 ∧ Stuck c p step y r.newx) := by
  have hr : ∀ j < k, c.f y - p.alpha * p.beta ^ j * dot p.d (c.g y).2 (c.g y).2 < c.f (step y (p.beta ^ j)) := by
    intro j hj
    have := h.rejected j hj
    rw [decr_iff] at this
    exact not_le.mp this
  rcases h.info with ⟨h1, h2⟩ | ⟨h1, h2, h3⟩
  · exact Or.inl ⟨h1, k, h.budget, h.newx, (decr_iff ..).mp h2, hr⟩
  · refine Or.inr ⟨h1, k, h3, h.newx, fun j hj => ?_⟩
    rcases Nat.lt_or_ge j k with hk | hk
    · exact hr j hk
    · have : j = k := by omega
      subst this
      rw [decr_iff, h.newx] at h2
      exact not_le.mp h2

/-- C113: an accepted move does not increase the objective. -/
theorem Accepted.descent {c : Cb K} {p : StPar K} {step : List K → K → List K} (ha : 0 ≤ p.alpha) (hb : 0 ≤ p.beta) {y z : List K}
    (h : Accepted c p step y z) : c.f z ≤ c.f y := by
  obtain ⟨k, _, _, h, _⟩ := h
  have := mul_nonneg (mul_nonneg ha (pow_nonneg hb k)) (dot_self_nonneg p.d (c.g y).2)
  linarith

/-- A move of `gradient_descent`: the gradient was available at `y` and longer than the tolerance, and the move was accepted. -/
def GdMove (sq : K → K) (c : Cb K) (p : StPar K) (y z : List K) : Prop :=
  (c.g y).1 = 0 ∧ p.tol < sq (dot p.d (c.g y).2 (c.g y).2) ∧ Accepted c p (gradStep c p.d) y z

/-- How `gradient_descent` can end, started at `x` with a working gradient there. -/
structure GdOut (sq : K → K) (c : Cb K) (p : StPar K) (x : List K) (r : StRes K) (n : Nat) (y : List K) : Prop where
  len : r.x.length = p.d
  fval : r.fval = c.f r.x
  steps : Steps (GdMove sq c p) n x y
  iters : n ≤ max 1 p.maxiter
  calls : r.pts.length ≤ 1 + max 1 p.maxiter * max 1 (p.maxsub - 1)
  code : (r.ret = 0 ∧ r.x = y ∧ c.g y = (0, r.grad) ∧ sq (dot p.d r.grad r.grad) ≤ p.tol) ∨
    (r.ret = 1 ∧ r.x = y ∧ p.maxiter ≤ n ∧ 1 ≤ n) ∨
    (r.ret = -20 + (c.g y).1 ∧ r.x = y ∧ (c.g y).1 ≠ 0) ∨
    (r.ret = 1 ∧ Stuck c p (gradStep c p.d) y r.x)

theorem gdLoop_spec (sq : K → K) {c : Cb K} {p : StPar K} (hc : c.Len p.d) (ha : 0 < p.alpha ∧ p.alpha < 1 / 2) (x0 : List K) :
    ∀ (fuel n : Nat) (x cur dir : List K) (pts : List (List K)), p.maxiter < fuel + (n + 1) → n + 1 ≤ max 1 p.maxiter → 0 < fuel → x.length = p.d →
      cur.length = p.d → dir.length = p.d → (c.g x).1 = 0 → Steps (GdMove sq c p) n x0 x →
      pts.length ≤ 1 + n * max 1 (p.maxsub - 1) →
      ∃ r n' y, gdLoop sq c p fuel (n + 1) x (c.f x) (c.g x).2 cur dir (sq (dot p.d (c.g x).2 (c.g x).2)) pts = .ok r ∧
        GdOut sq c p x0 r n' y := by
  intro fuel
  induction fuel with
  | zero => intro n x cur dir pts _ _ h; omega
  | succ fuel ih =>
    intro n x cur dir pts hf hn _ hx hcur hdir hg hs hp
    rw [gdLoop]
    split
    · next heta =>
      have hvn : (vneg (c.g x).2).length = p.d := by simp [vneg, hc x]
      rw [dcopy_ok hx hcur, bind_ok, dcopy_ok (hc x) hdir, bind_ok, neg_copy_ok (hc x), bind_ok]
      obtain ⟨k, r, h1, h2⟩ := backtrack_spec (f := c.f) (c.f x) (c.f x) p.beta p.maxsub pts hx hvn hx (hc x) ha
      rw [h1, bind_ok]
      have hcl := h2.calls_le
      have hcl2 : r.pts.length ≤ 1 + (n + 1) * max 1 (p.maxsub - 1) := by
        rw [Nat.add_mul, Nat.one_mul]; omega
      have hcl3 : r.pts.length ≤ 1 + max 1 p.maxiter * max 1 (p.maxsub - 1) :=
        hcl2.trans (Nat.add_le_add_left (Nat.mul_le_mul_right _ hn) 1)
      have hlen : r.newx.length = p.d := by rw [h2.newx, freeStep_length]
      rcases searched_cases (step := gradStep c p.d) h2 with ⟨h3, h4⟩ | ⟨h3, h4⟩
      · rw [if_neg (by simp [h3])]
        have hs' := hs.succ ⟨hg, heta, h4⟩
        split
        · next h5 => exact ⟨_, n + 1, r.newx, rfl, hlen, h2.fnx, hs', by omega, hcl3, Or.inr (Or.inl ⟨rfl, rfl, by omega, by omega⟩)⟩
        · next h5 =>
          split
          · next h6 => exact ⟨_, n + 1, r.newx, rfl, hlen, h2.fnx, hs', by omega, hcl3, Or.inr (Or.inr (Or.inl ⟨rfl, rfl, h6⟩))⟩
          · next h6 =>
            rw [dot_ok (hc _) (hc _), bind_ok, h2.fnx]
            exact ih (n + 1) r.newx x _ r.pts (by omega) (by omega) (by omega) hlen hx hvn (not_not.mp h6) hs' hcl2
      · rw [if_pos (by simp [h3])]
        exact ⟨_, n, x, rfl, hlen, h2.fnx, hs, by omega, hcl3, Or.inr (Or.inr (Or.inr ⟨h3, h4⟩))⟩
    · next h1 =>
      refine ⟨_, n, x, rfl, hx, rfl, hs, by omega, ?_, Or.inl ⟨rfl, rfl, Prod.ext hg rfl, not_lt.mp h1⟩⟩
      exact hp.trans (Nat.add_le_add_left (Nat.mul_le_mul_right _ (by omega)) 1)

/-- C113: `gradient_descent` with a valid `alpha` always ends; `*fval` is the objective at the final point, all moves but possibly the last are accepted
Armijo moves, and the return code tells how it ended. -/
theorem gradientDescent_spec (sq : K → K) {c : Cb K} {p : StPar K} (hc : c.Len p.d) (ha : 0 < p.alpha ∧ p.alpha < 1 / 2) {x cur dir : List K} (fval0 : K)
    (hx : x.length = p.d) (hcur : cur.length = p.d) (hdir : dir.length = p.d) (hg : (c.g x).1 = 0) :
    ∃ r n y, gradientDescent sq c p x fval0 cur dir = .ok r ∧ GdOut sq c p x r n y := by
  rw [gradientDescent, if_neg (by simp [hg]), dot_ok (hc _) (hc _), bind_ok]
  split
  · next h1 =>
    exact ⟨_, 0, x, rfl, hx, rfl, Steps.zero x, by omega, by simp, Or.inl ⟨rfl, rfl, Prod.ext hg rfl, h1.le⟩⟩
  · exact gdLoop_spec sq hc ha x (p.maxiter + 1) 0 x cur dir [x] (by omega) (by omega) (by omega) hx hcur hdir hg (Steps.zero x) (by simp)

/-- C113: a gradient that fails at the start is reported; nothing else is done. -/
theorem gradientDescent_start_fails (sq : K → K) {c : Cb K} {p : StPar K} (x cur dir : List K) (fval0 : K) (hg : (c.g x).1 ≠ 0) :
    gradientDescent sq c p x fval0 cur dir = .ok ⟨x, fval0, (c.g x).2, -20 + (c.g x).1, []⟩ := by
  rw [gradientDescent, if_pos hg]; rfl

/-- C113: return value 0 means a point with small gradient, not worse than the starting point - provided the gradient never fails with
code 20. -/
theorem GdOut.success {sq : K → K} {c : Cb K} {p : StPar K} {x : List K} {r : StRes K} {n : Nat} {y : List K} (h : GdOut sq c p x r n y)
    (ha : 0 ≤ p.alpha) (hb : 0 ≤ p.beta) (h20 : ∀ z, (c.g z).1 ≠ 20) (h0 : r.ret = 0) :
    c.g r.x = (0, r.grad) ∧ sq (dot p.d r.grad r.grad) ≤ p.tol ∧ r.fval = c.f r.x ∧ c.f r.x ≤ c.f x := by
  have hm := h.steps.mono (V := c.f) (fun a b hab => hab.2.2.descent ha hb)
  rcases h.code with ⟨_, h1, h2, h3⟩ | ⟨h1, _⟩ | ⟨h1, _⟩ | ⟨h1, _⟩
  · rw [h1]; exact ⟨h2, h3, by rw [h.fval, h1], hm⟩
  · omega
  · have := h20 y; omega
  · omega

/-- The end of the search at `y` and the search moved: the last distance is small. -/
structure PgOut (sq : K → K) (c : Cb K) (p : StPar K) (lb ub x : List K) (r : StRes K) (n : Nat) (y : List K) : Prop where
  len : r.x.length = p.d
  fval : r.fval = c.f r.x
  inBox : InBox p.d lb ub r.x
  steps : Steps (Accepted c p (gradProj c p.d lb ub)) n x y
  iters : n ≤ max 1 p.maxiter
  calls : r.pts.length ≤ 1 + max 1 p.maxiter * max 1 (p.maxsub - 1)
  code : (r.ret = 0 ∧ r.x = y ∧ c.g y = (0, r.grad) ∧
      ((n = 0 ∧ sq (dot p.d r.grad r.grad) ≤ p.tol) ∨
        ∃ w m, n = m + 1 ∧ Steps (Accepted c p (gradProj c p.d lb ub)) m x w ∧ Accepted c p (gradProj c p.d lb ub) w y ∧ sq (dist2 p.d y w) ≤ p.tol)) ∨
    (r.ret = 1 ∧ r.x = y ∧ p.maxiter ≤ n ∧ 1 ≤ n) ∨
    (r.ret = -1 ∧ r.x = y ∧ (c.g y).1 ≠ 0) ∨
    (r.ret = 1 ∧ Stuck c p (gradProj c p.d lb ub) y r.x)

theorem pgLoop_spec (sq : K → K) {c : Cb K} {p : StPar K} {lb ub : List K} (hl : lb.length = p.d) (hu : ub.length = p.d) (hc : c.Len p.d)
    (ha : 0 < p.alpha ∧ p.alpha < 1 / 2) (x0 : List K) :
    ∀ (fuel n : Nat) (x cur dir : List K) (eta : K) (pts : List (List K)), p.maxiter < fuel + (n + 1) → n + 1 ≤ max 1 p.maxiter → 0 < fuel →
      x.length = p.d → InBox p.d lb ub x → cur.length = p.d → dir.length = p.d → (c.g x).1 = 0 →
      Steps (Accepted c p (gradProj c p.d lb ub)) n x0 x → pts.length ≤ 1 + n * max 1 (p.maxsub - 1) →
      ((n = 0 ∧ eta = sq (dot p.d (c.g x).2 (c.g x).2)) ∨
        ∃ w m, n = m + 1 ∧ Steps (Accepted c p (gradProj c p.d lb ub)) m x0 w ∧ Accepted c p (gradProj c p.d lb ub) w x ∧ eta = sq (dist2 p.d x w)) →
      ∃ r n' y, pgLoop sq c p lb ub fuel (n + 1) x (c.f x) (c.g x).2 cur dir eta pts = .ok r ∧ PgOut sq c p lb ub x0 r n' y := by
  intro fuel
  induction fuel with
  | zero => intro n x cur dir eta pts _ _ h; omega
  | succ fuel ih =>
    intro n x cur dir eta pts hf hn _ hx hin hcur hdir hg hs hp he
    rw [pgLoop]
    split
    · have hvn : (vneg (c.g x).2).length = p.d := by simp [vneg, hc x]
      rw [dcopy_ok hx hcur, bind_ok, dcopy_ok (hc x) hdir, bind_ok, neg_copy_ok (hc x), bind_ok]
      obtain ⟨k, r, h1, h2, hbox⟩ := backtrackBc_spec (f := c.f) (c.f x) (c.f x) p.beta p.maxsub pts hl hu hx hvn hx (hc x) hin ha
      rw [h1, bind_ok]
      dsimp only
      have hcl := h2.calls_le
      have hcl2 : r.pts.length ≤ 1 + (n + 1) * max 1 (p.maxsub - 1) := by
        rw [Nat.add_mul, Nat.one_mul]; omega
      have hcl3 : r.pts.length ≤ 1 + max 1 p.maxiter * max 1 (p.maxsub - 1) :=
        hcl2.trans (Nat.add_le_add_left (Nat.mul_le_mul_right _ hn) 1)
      have hlen : r.newx.length = p.d := by rw [h2.newx, projStep_length]
      rcases searched_cases (step := gradProj c p.d lb ub) h2 with ⟨h3, h4⟩ | ⟨h3, h4⟩
      · rw [if_neg (by simp [h3])]
        have hs' := hs.succ h4
        split
        · next h5 => exact ⟨_, n + 1, r.newx, rfl, hlen, h2.fnx, hbox, hs', by omega, hcl3, Or.inr (Or.inl ⟨rfl, rfl, by omega, by omega⟩)⟩
        · next h5 =>
          split
          · next h6 => exact ⟨_, n + 1, r.newx, rfl, hlen, h2.fnx, hbox, hs', by omega, hcl3, Or.inr (Or.inr (Or.inl ⟨rfl, rfl, h6⟩))⟩
          · next h6 =>
            rw [norm2diff_ok sq hlen hx, bind_ok, h2.fnx]
            exact ih (n + 1) r.newx x _ _ r.pts (by omega) (le_trans (not_lt.mp h5) (le_max_right _ _)) (by omega) hlen hbox hx hvn (not_not.mp h6) hs' hcl2
              (Or.inr ⟨x, n, rfl, hs, h4, rfl⟩)
      · rw [if_pos (by simp [h3])]
        exact ⟨_, n, x, rfl, hlen, h2.fnx, hbox, hs, by omega, hcl3, Or.inr (Or.inr (Or.inr ⟨h3, h4⟩))⟩
    · next h1 =>
      refine ⟨_, n, x, rfl, hx, rfl, hin, hs, by omega, ?_, Or.inl ⟨rfl, rfl, Prod.ext hg rfl, ?_⟩⟩
      · exact hp.trans (Nat.add_le_add_left (Nat.mul_le_mul_right _ (by omega)) 1)
      · rcases he with ⟨e1, e2⟩ | ⟨w, m, e1, e2, e3, e4⟩
        · exact Or.inl ⟨e1, e2 ▸ not_lt.mp h1⟩
        · exact Or.inr ⟨w, m, e1, e2, e3, e4 ▸ not_lt.mp h1⟩

/-- C114: `box_pg_descent` from a point of the box with a valid `alpha` always ends in the box; `*fval` is the objective at the final point. -/
theorem boxPgDescent_spec (sq : K → K) {c : Cb K} {p : StPar K} {lb ub : List K} (hl : lb.length = p.d) (hu : ub.length = p.d) (hc : c.Len p.d)
    (ha : 0 < p.alpha ∧ p.alpha < 1 / 2) {x cur dir : List K} (fval0 : K) (hx : x.length = p.d) (hin : InBox p.d lb ub x) (hcur : cur.length = p.d)
    (hdir : dir.length = p.d) (hg : (c.g x).1 = 0) :
    ∃ r n y, boxPgDescent sq c p lb ub x fval0 cur dir = .ok r ∧ PgOut sq c p lb ub x r n y := by
  rw [boxPgDescent, if_neg (by simp [hg]), dot_ok (hc _) (hc _), bind_ok]
  split
  · next h1 =>
    exact ⟨_, 0, x, rfl, hx, rfl, hin, Steps.zero x, by omega, by simp, Or.inl ⟨rfl, rfl, Prod.ext hg rfl, Or.inl ⟨rfl, h1.le⟩⟩⟩
  · exact pgLoop_spec sq hl hu hc ha x (p.maxiter + 1) 0 x cur dir _ [x] (by omega) (by omega) (by omega) hx hin hcur hdir hg (Steps.zero x) (by simp)
      (Or.inl ⟨rfl, rfl⟩)

/-- C114: return value 0 means the last step (or the gradient at the start) is small; the objective did not increase. -/
theorem PgOut.success {sq : K → K} {c : Cb K} {p : StPar K} {lb ub x : List K} {r : StRes K} {n : Nat} {y : List K} (h : PgOut sq c p lb ub x r n y)
    (ha : 0 ≤ p.alpha) (hb : 0 ≤ p.beta) (h0 : r.ret = 0) :
    c.g r.x = (0, r.grad) ∧ InBox p.d lb ub r.x ∧ r.fval = c.f r.x ∧ c.f r.x ≤ c.f x ∧
      (sq (dot p.d r.grad r.grad) ≤ p.tol ∨ ∃ w, Accepted c p (gradProj c p.d lb ub) w r.x ∧ c.f w ≤ c.f x ∧ sq (dist2 p.d r.x w) ≤ p.tol) := by
  have hm := h.steps.mono (V := c.f) (fun a b hab => hab.descent ha hb)
  rcases h.code with ⟨_, h1, h2, h3⟩ | ⟨h1, _⟩ | ⟨h1, _⟩ | ⟨h1, _⟩
  · have h4 := h.inBox
    have h5 := h.fval
    rw [h1] at h4 h5 ⊢
    refine ⟨h2, h4, h5, hm, ?_⟩
    rcases h3 with ⟨_, h3⟩ | ⟨w, m, _, e2, e3, e4⟩
    · exact Or.inl h3
    · exact Or.inr ⟨w, e3, e2.mono (V := c.f) (fun a b hab => hab.descent ha hb), e4⟩
  all_goals omega

end C3.Opt

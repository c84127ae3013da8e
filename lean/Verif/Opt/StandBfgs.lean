/-
Standalone damped BFGS on a box: feasibility, return codes, the matrix update, and where it departs from its documentation.
-/
import Verif.Opt.StandNewton
import Verif.Opt.BfgsDescent

set_option linter.unusedSectionVars false

namespace C3.Opt
open Finset

variable {K : Type} [Field K] [LinearOrder K] [IsStrictOrderedRing K]

/-- An accepted move of the damped BFGS method from the point and matrix `a` to `b`: the direction is `-H*grad`, the point is the first trial point with sufficient decrease,
and the matrix is the BFGS update with the vector `alpha*beta^k*direction` (unless its product with the change of the gradient is tiny). -/
structure DbMove (c : Cb K) (p : StPar K) (lb ub : List K) (a b : List K × List K) (k : Nat) : Prop where
  gy : (c.g a.1).1 = 0
  gz : (c.g b.1).1 = 0
  budget : k = 0 ∨ k + 2 ≤ p.maxsub
  point : b.1 = projStep p.d lb ub a.1 (qn p.d a.2 (c.g a.1).2) (p.beta ^ k)
  decr : c.f b.1 ≤ c.f a.1 + p.alpha * p.beta ^ k * dot p.d (c.g a.1).2 (qn p.d a.2 (c.g a.1).2)
  rejected : ∀ j < k, c.f a.1 + p.alpha * p.beta ^ j * dot p.d (c.g a.1).2 (qn p.d a.2 (c.g a.1).2) <
    c.f (projStep p.d lb ub a.1 (qn p.d a.2 (c.g a.1).2) (p.beta ^ j))
  update : 1 / 10 ^ 16 < |ip p.d (fun i => p.beta ^ k * p.alpha * gv (qn p.d a.2 (c.g a.1).2) i) (vdiff (c.g a.1).2 (c.g b.1).2)| →
    ∀ i < p.d, ∀ j < p.d, Hm p.d b.2 i j =
      bfgs p.d (Hm p.d a.2) (fun i => p.beta ^ k * p.alpha * gv (qn p.d a.2 (c.g a.1).2) i) (vdiff (c.g a.1).2 (c.g b.1).2) i j
  keep : |ip p.d (fun i => p.beta ^ k * p.alpha * gv (qn p.d a.2 (c.g a.1).2) i) (vdiff (c.g a.1).2 (c.g b.1).2)| ≤ 1 / 10 ^ 16 → b.2 = a.2

/-- A move with some scaling. -/
def DbStep (c : Cb K) (p : StPar K) (lb ub : List K) (a b : List K × List K) : Prop := ∃ k, DbMove c p lb ub a b k

/-- How `box_damp_bfgs` can end, after `n` complete iterations that lead from `(x,h)` to `a`. In the second and third case one more point was accepted after that. -/
structure DbOut (c : Cb K) (p : StPar K) (lb ub x h : List K) (r : StRes K) (hr : List K) (n : Nat) (a : List K × List K) : Prop where
  len : r.x.length = p.d
  fval : r.fval = c.f r.x
  inBox : InBox p.d lb ub r.x
  steps : Steps (DbStep c p lb ub) n (x, h) a
  iters : n ≤ p.maxiter
  calls : r.pts.length ≤ 1 + max 1 p.maxiter * max 1 (p.maxsub - 1)
  mat : hr = a.2
  code : (r.ret = 0 ∧ r.x = a.1 ∧ c.g a.1 = (0, r.grad) ∧
      ((n = 0 ∧ dot p.d r.grad (qn p.d h r.grad) ^ 2 / 2 < p.tol) ∨
        ∃ v m, n = m + 1 ∧ Steps (DbStep c p lb ub) m (x, h) v ∧ DbStep c p lb ub v a ∧
          ((Inside p.d lb ub a.1 ∧ |c.f a.1 - c.f v.1| < p.tol) ∨ (¬Inside p.d lb ub a.1 ∧ dist2 p.d a.1 v.1 < p.tol)))) ∨
    (r.ret = 1 ∧ p.maxiter ≤ n + 1 ∧ ∃ k, r.x = projStep p.d lb ub a.1 (qn p.d a.2 (c.g a.1).2) (p.beta ^ k) ∧
      c.f r.x ≤ c.f a.1 + p.alpha * p.beta ^ k * dot p.d (c.g a.1).2 (qn p.d a.2 (c.g a.1).2)) ∨
    (r.ret = -20 + (c.g r.x).1 ∧ (c.g r.x).1 ≠ 0) ∨
    (r.ret = 1 ∧ ∃ k, p.maxsub ≤ k + 2 ∧ r.x = projStep p.d lb ub a.1 (qn p.d a.2 (c.g a.1).2) (p.beta ^ k) ∧
      ∀ j ≤ k, c.f a.1 + p.alpha * p.beta ^ j * dot p.d (c.g a.1).2 (qn p.d a.2 (c.g a.1).2) <
        c.f (projStep p.d lb ub a.1 (qn p.d a.2 (c.g a.1).2) (p.beta ^ j)))

theorem db_mid {d : Nat} {g gz dir w2 w3 h : List K} (sc : K) (hd : dir.length = d) (hg : g.length = d) (hgz : gz.length = d) (hw2 : w2.length = d)
    (hw : w3.length = d) (hh : h.length = d * d) :
    ∃ s y h' w, dscal d sc dir = .ok s ∧ dcopy d gz w2 = .ok gz ∧ daxpy d (-1) g gz = .ok y ∧ bfgsUpdate d s y w3 h = .ok (h', w) ∧
      daxpy d 1 y g = .ok gz ∧ s.length = d ∧ y.length = d ∧ w.length = d ∧ h'.length = d * d ∧
      (1 / 10 ^ 16 < |ip d (fun i => sc * gv dir i) (vdiff g gz)| → ∀ i < d, ∀ j < d, Hm d h' i j = bfgs d (Hm d h) (fun i => sc * gv dir i) (vdiff g gz) i j) ∧
      (|ip d (fun i => sc * gv dir i) (vdiff g gz)| ≤ 1 / 10 ^ 16 → h' = h) := by
  have hs : ∀ i < d, gv ((List.range d).map fun i => sc * dir.getD i 0) i = sc * gv dir i := by
    intro i hi
    rw [gv, gv]; simp [hi]
  have hy : ∀ i < d, gv ((List.range d).map fun i => gz.getD i 0 + (-1 : K) * g.getD i 0) i = vdiff g gz i := by
    intro i hi
    rw [gv, vdiff]; simp [hi]; ring
  obtain ⟨h', w, u1, u2, u3, u4, u5, _⟩ := bfgsUpdate_ok (d := d) (s := (List.range d).map fun i => sc * dir.getD i 0)
    (y := (List.range d).map fun i => gz.getD i 0 + (-1 : K) * g.getD i 0) (by simp) (by simp) hw hh
  rw [ip_congr hs hy] at u4 u5
  refine ⟨_, _, h', w, dscal_ok _ hd, dcopy_ok hgz hw2, daxpy_ok _ hg hgz, u1, ?_, by simp, by simp, u3, u2, ?_, u5⟩
  · rw [daxpy_ok _ (by simp) hg]
    congr 1
    apply List.ext_getElem
    · simp [hgz]
    · intro i h1 h2
      have hi : i < d := by simpa using h1
      simp [hi, h2]
  · intro hc i hi j hj
    rw [u4 hc i hi j hj, bfgs, bfgs, ip_congr hs hy, hs i hi, hs j hj,
      ip_congr hy (fun k hk => mulv_congr (i := k) (fun _ _ => rfl) hy), mulv_congr (i := i) (fun _ _ => rfl) hy, mulv_congr (i := j) (fun _ _ => rfl) hy]

theorem dbLoop_spec {c : Cb K} {p : StPar K} {lb ub : List K} (hl : lb.length = p.d) (hu : ub.length = p.d) (hc : c.Len p.d)
    (ha : 0 < p.alpha ∧ p.alpha < 1 / 2) (x0 h0 : List K) :
    ∀ (fuel n : Nat) (x h cur w2 w3 : List K) (pts : List (List K)), p.maxiter < fuel + (n + 1) → n + 1 ≤ max 1 p.maxiter → 0 < fuel →
      x.length = p.d → InBox p.d lb ub x → h.length = p.d * p.d → cur.length = p.d → w2.length = p.d → w3.length = p.d → (c.g x).1 = 0 →
      Steps (DbStep c p lb ub) n (x0, h0) (x, h) → pts.length ≤ 1 + n * max 1 (p.maxsub - 1) →
      ∃ r n' a, dbLoop c p lb ub fuel (n + 1) x (c.f x) (c.g x).2 h cur (qn p.d h (c.g x).2) w2 w3 pts = .ok r ∧ DbOut c p lb ub x0 h0 r.1 r.2 n' a := by
  classical
  intro fuel
  induction fuel with
  | zero => intro n x h cur w2 w3 pts _ _ hz; omega
  | succ fuel ih =>
    intro n x h cur w2 w3 pts hf hn _ hx hin hh hcur hw2 hw3 hg hs hp
    have hdl := qn_length p.d h (c.g x).2
    rw [dbLoop, dcopy_ok hx hcur, bind_ok]
    obtain ⟨k, r, h1, h2, hbox⟩ := backtrackBc_spec (f := c.f) (c.f x) (c.f x) p.beta p.maxsub pts hl hu hx hdl hx (hc x) hin ha
    rw [h1, bind_ok]
    dsimp only
    obtain ⟨s, y, h', w, m1, m2, m3, m4, m5, m6, m7, m8, m9, m10, m11⟩ :=
      db_mid (r.ret * p.alpha) hdl (hc x) (hc r.newx) hw2 hw3 hh
    rw [m1, bind_ok]
    have hcl := h2.calls_le
    have hcl2 : r.pts.length ≤ 1 + (n + 1) * max 1 (p.maxsub - 1) := by
      rw [Nat.add_mul, Nat.one_mul]; omega
    have hcl3 : r.pts.length ≤ 1 + max 1 p.maxiter * max 1 (p.maxsub - 1) :=
      hcl2.trans (Nat.add_le_add_left (Nat.mul_le_mul_right _ hn) 1)
    have hlen : r.newx.length = p.d := by rw [h2.newx, projStep_length]
    have hrej : ∀ j < k, c.f x + p.alpha * p.beta ^ j * dot p.d (c.g x).2 (qn p.d h (c.g x).2) <
        c.f (projStep p.d lb ub x (qn p.d h (c.g x).2) (p.beta ^ j)) := fun j hj => not_le.mp (h2.rejected j hj)
    have hnm : n ≤ p.maxiter := by
      rcases Nat.lt_or_ge p.maxiter 1 with e | e <;> omega
    rcases h2.info with ⟨h3, h4⟩ | ⟨h3, h4, h5⟩
    · rw [if_neg (by simp [h3])]
      split
      · next h5 => exact ⟨_, n, (x, h), rfl, hlen, h2.fnx, hbox, hs, hnm, hcl3, rfl, Or.inr (Or.inl ⟨rfl, by omega, k, h2.newx, h4⟩)⟩
      · next h5 =>
        split
        · next h6 => exact ⟨_, n, (x, h), rfl, hlen, h2.fnx, hbox, hs, hnm, hcl3, rfl, Or.inr (Or.inr (Or.inl ⟨rfl, h6⟩))⟩
        · next h6 =>
          have h6 : (c.g r.newx).1 = 0 := not_not.mp h6
          rw [m2, bind_ok, m3, bind_ok, m4, bind_ok, m5, bind_ok]
          dsimp only
          rw [dsymv_qn m9 (hc _) m6, bind_ok, onBound_ok hlen hl hu, bind_ok, sumsq_ok hlen hx, bind_ok]
          rw [h2.ret] at m10 m11
          have hmove : DbStep c p lb ub (x, h) (r.newx, h') := ⟨k, hg, h6, h2.budget, h2.newx, h4, hrej, m10, m11⟩
          have hs' := hs.succ hmove
          have hn5 : n + 1 + 1 ≤ p.maxiter := not_lt.mp h5
          have hih := ih (n + 1) r.newx h' x y w r.pts (by omega) (le_trans hn5 (le_max_right _ _)) (by omega) hlen hbox m9 hx m7 m8 h6 hs' hcl2
          rw [← h2.fnx] at hih
          by_cases hI : Inside p.d lb ub r.newx
          · simp only [decide_eq_false (not_not.mpr hI), Bool.false_eq_true, if_false]
            split
            · next h8 =>
              rw [h2.fnx] at h8
              exact ⟨_, n + 1, (r.newx, h'), rfl, hlen, h2.fnx, hbox, hs', by omega, hcl3, rfl,
                Or.inl ⟨rfl, rfl, Prod.ext h6 rfl, Or.inr ⟨(x, h), n, rfl, hs, hmove, Or.inl ⟨hI, h8⟩⟩⟩⟩
            · exact hih
          · simp only [decide_eq_true hI, if_true]
            split
            · next h8 =>
              exact ⟨_, n + 1, (r.newx, h'), rfl, hlen, h2.fnx, hbox, hs', by omega, hcl3, rfl,
                Or.inl ⟨rfl, rfl, Prod.ext h6 rfl, Or.inr ⟨(x, h), n, rfl, hs, hmove, Or.inr ⟨hI, h8⟩⟩⟩⟩
            · exact hih
    · rw [if_pos (by simp [h3])]
      refine ⟨_, n, (x, h), rfl, hlen, h2.fnx, hbox, hs, hnm, hcl3, rfl, Or.inr (Or.inr (Or.inr ⟨h3, k, h5, h2.newx, ?_⟩))⟩
      intro j hj
      rcases Nat.lt_or_ge j k with hk | hk
      · exact hrej j hk
      · have : j = k := by omega
        subst this
        rw [h2.newx] at h4
        exact not_le.mp h4

/-- C116: `box_damp_bfgs` from a point of the box with a valid `alpha`, a working gradient at the start and a workspace of `4*d` numbers always ends in the box; `*fval` is the objective at
the final point, the matrix left behind is the one of the last complete iteration, and the return code tells how it ended. -/
theorem boxDampBfgs_spec {c : Cb K} {p : StPar K} {lb ub : List K} (hl : lb.length = p.d) (hu : ub.length = p.d) (hc : c.Len p.d)
    (ha : 0 < p.alpha ∧ p.alpha < 1 / 2) {x h cur dir w2 w3 : List K} (hx : x.length = p.d) (hin : InBox p.d lb ub x) (hh : h.length = p.d * p.d)
    (hcur : cur.length = p.d) (hdir : dir.length = p.d) (hw2 : w2.length = p.d) (hw3 : w3.length = p.d) (hg : (c.g x).1 = 0) :
    ∃ r n a, boxDampBfgs c p lb ub x h cur dir w2 w3 = .ok r ∧ DbOut c p lb ub x h r.1 r.2 n a := by
  rw [boxDampBfgs, if_neg (by simp [hg]), dsymv_qn hh (hc x) hdir, bind_ok, dot_ok (hc _) (qn_length ..), bind_ok]
  split
  · next h1 =>
    exact ⟨_, 0, (x, h), rfl, hx, rfl, hin, Steps.zero _, by omega, by simp, rfl, Or.inl ⟨rfl, rfl, Prod.ext hg rfl, Or.inl ⟨rfl, by rw [pow_two]; exact h1⟩⟩⟩
  · exact dbLoop_spec hl hu hc ha x h (p.maxiter + 1) 0 x h cur w2 w3 [x] (by omega) (by omega) (by omega) hx hin hh hcur hw2 hw3 hg (Steps.zero _) (by simp)

/-- C116: with a positive definite matrix a move does not increase the objective. -/
theorem DbMove.descent {c : Cb K} {p : StPar K} {lb ub : List K} {a b : List K × List K} {k : Nat} (h : DbMove c p lb ub a b k)
    (hp : PosDef p.d (Hm p.d a.2)) (ha : 0 ≤ p.alpha) (hb : 0 ≤ p.beta) : c.f b.1 ≤ c.f a.1 := by
  have h1 := h.decr
  have h2 := (qn_descent (g := (c.g a.1).2) hp).1
  have := mul_nonpos_of_nonneg_of_nonpos (mul_nonneg ha (pow_nonneg hb k)) h2
  linarith

/-- C116, what the code does: when the new point is strictly inside the box, the updated matrix satisfies the secant equation not for the step that was made but for `alpha` times this step
(the line search returns `t*alpha`). -/
theorem DbMove.secant_actual {c : Cb K} {p : StPar K} {lb ub : List K} {a b : List K × List K} {k : Nat} (h : DbMove c p lb ub a b k)
    (hin : Inside p.d lb ub b.1)
    (hc : 1 / 10 ^ 16 < |ip p.d (fun i => p.beta ^ k * p.alpha * gv (qn p.d a.2 (c.g a.1).2) i) (vdiff (c.g a.1).2 (c.g b.1).2)|) :
    ∀ i < p.d, mulv p.d (Hm p.d b.2) (vdiff (c.g a.1).2 (c.g b.1).2) i = p.alpha * vdiff a.1 b.1 i := by
  intro i hi
  have hne : ip p.d (fun i => p.beta ^ k * p.alpha * gv (qn p.d a.2 (c.g a.1).2) i) (vdiff (c.g a.1).2 (c.g b.1).2) ≠ 0 := by
    intro h0
    rw [h0, abs_zero] at hc
    have : (0 : K) < 1 / 10 ^ 16 := by positivity
    exact absurd hc (not_lt.mpr this.le)
  rw [mulv_congr (i := i) (fun j hj => h.update hc i hi j hj) (fun _ _ => rfl), bfgs_secant _ hne i]
  have h1 := h.point
  have h2 := projStep_inside (h1 ▸ hin) i hi
  rw [← h1] at h2
  rw [vdiff, h2, gv]; ring

/-- C116: as long as the new point is strictly inside the box and the gradient changes in the direction of the step, a positive definite matrix stays positive definite. -/
theorem DbMove.posDef {c : Cb K} {p : StPar K} {lb ub : List K} {a b : List K × List K} {k : Nat} (h : DbMove c p lb ub a b k)
    (hp : PosDef p.d (Hm p.d a.2)) (ha : 0 < p.alpha) (hb : 0 < p.beta)
    (hcv : 0 ≤ ip p.d (gv (qn p.d a.2 (c.g a.1).2)) (vdiff (c.g a.1).2 (c.g b.1).2)) : PosDef p.d (Hm p.d b.2) := by
  have hsc : 0 < p.beta ^ k * p.alpha := mul_pos (pow_pos hb k) ha
  have hip : ip p.d (fun i => p.beta ^ k * p.alpha * gv (qn p.d a.2 (c.g a.1).2) i) (vdiff (c.g a.1).2 (c.g b.1).2) =
      p.beta ^ k * p.alpha * ip p.d (gv (qn p.d a.2 (c.g a.1).2)) (vdiff (c.g a.1).2 (c.g b.1).2) := by
    rw [ip_comm, ip_smul, ip_comm]
  by_cases hc : 1 / 10 ^ 16 < |ip p.d (fun i => p.beta ^ k * p.alpha * gv (qn p.d a.2 (c.g a.1).2) i) (vdiff (c.g a.1).2 (c.g b.1).2)|
  · have h0 : 0 ≤ ip p.d (fun i => p.beta ^ k * p.alpha * gv (qn p.d a.2 (c.g a.1).2) i) (vdiff (c.g a.1).2 (c.g b.1).2) := by
      rw [hip]; exact mul_nonneg hsc.le hcv
    have hpos : 0 < ip p.d (fun i => p.beta ^ k * p.alpha * gv (qn p.d a.2 (c.g a.1).2) i) (vdiff (c.g a.1).2 (c.g b.1).2) := by
      rw [abs_of_nonneg h0] at hc
      have : (0 : K) < 1 / 10 ^ 16 := by positivity
      exact this.trans hc
    have hB := bfgs_posDef (Hm_symm p.d a.2) hp hpos
    intro v hv
    have := hB v hv
    rwa [ip_congr (u := v) (u' := v) (fun _ _ => rfl) (fun i hi => mulv_congr (i := i) (fun j hj => h.update hc i hi j hj) (fun _ _ => rfl))]
  · rw [h.keep (not_lt.mp hc)]; exact hp

/-- C116, the property fails: the documented workspace has `3*d` numbers, the code uses `4*d`. With the documented size (the fourth part is empty) every run that reaches the update of
the matrix writes out of bounds. Here `f(x) = (x-1)^2` on `[-3,3]` from 0. -/
theorem boxDampBfgs_workspace_counterexample :
    (boxDampBfgs exNewt ⟨1, 1 / 100, 10, 10, 1 / 4, 1 / 2⟩ [-3] [3] [0] [1] [0] [0] [0] []).map (fun r => r.1.ret) = .error .oob := by decide +kernel

/-- C116: the same run with `4*d` numbers. The first step has scaling 1/2 and reaches the minimum 1 exactly; the matrix left behind should be 1/2 (the inverse of the second derivative),
it is 1/8 (factor `alpha = 1/4`). -/
theorem boxDampBfgs_secant_counterexample :
    (boxDampBfgs exNewt ⟨1, 1 / 100, 10, 10, 1 / 4, 1 / 2⟩ [-3] [3] [0] [1] [0] [0] [0] [0]).map (fun r => (r.1.x, r.1.ret, r.2)) = .ok ([1], 0, [1 / 8]) := by
  decide +kernel

example : exNewt.Len 1 ∧ PosDef 1 (Hm 1 ([1] : List ℚ)) := by
  refine ⟨fun _ => rfl, ?_⟩
  rintro v ⟨i, hi, hv⟩
  have : i = 0 := by omega
  subst this
  simp [ip, mulv, Hm, up]
  exact hv

end C3.Opt

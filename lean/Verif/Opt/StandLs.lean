/-
The two standalone backtracking line searches: which step they accept, where the new point is, how often the objective is called.
-/
import Verif.Opt.StandModel
import Verif.Opt.BfgsLemmas

set_option linter.unusedSectionVars false

namespace C3.Opt
open Finset

variable {K : Type} [Field K] [LinearOrder K] [IsStrictOrderedRing K]

/-- The point `x + t*p`. -/
def freeStep (d : Nat) (x p : List K) (t : K) : List K := (List.range d).map fun i => x.getD i 0 + t * p.getD i 0

/-- The sufficient decrease condition (Armijo) for the point `z` reached with scaling `t`: the objective lies below the line through `fx`
with `alpha` times the slope `dg`. -/
def Decr (f : List K → K) (fx dg alpha t : K) (z : List K) : Prop := f z ≤ fx + alpha * t * dg

/-- Specification of a backtracking search over the points `step t`, `t = 1, beta, beta^2, ...`: `k` is the index of the last point tried. All
earlier points fail the sufficient decrease condition; with code 0 the last one satisfies it, with code 1 it does not and the budget is
used up. -/
structure Searched (f : List K → K) (step : K → List K) (fx dg alpha beta : K) (maxiter : Nat) (pts0 : List (List K)) (k : Nat) (r : BtR K) :
    Prop where
  ret : r.ret = beta ^ k
  newx : r.newx = step (beta ^ k)
  fnx : r.fnx = f r.newx
  rejected : ∀ j < k, ¬Decr f fx dg alpha (beta ^ j) (step (beta ^ j))
  calls : r.pts = ((List.range (k + 1)).reverse.map fun j => step (beta ^ j)) ++ pts0
  info : (r.info = 0 ∧ Decr f fx dg alpha (beta ^ k) r.newx) ∨ (r.info = 1 ∧ ¬Decr f fx dg alpha (beta ^ k) r.newx ∧ maxiter ≤ k + 2)
  budget : k = 0 ∨ k + 2 ≤ maxiter

theorem freeStep_length (d : Nat) (x p : List K) (t : K) : (freeStep d x p t).length = d := by simp [freeStep]

theorem moveFree_ok {d : Nat} {x p b : List K} (t : K) (hx : x.length = d) (hp : p.length = d) (hb : b.length = d) :
    moveFree d x p t b = .ok (freeStep d x p t) := by
  rw [moveFree, dcopy_ok hx hb, bind_ok, daxpy_ok t hp hx]; rfl

theorem clipTo_ok {d : Nat} {lb ub b : List K} (hl : lb.length = d) (hu : ub.length = d) (hb : b.length = d)
    (h : ∀ i < d, lb.getD i 0 ≤ ub.getD i 0) :
    clipTo d lb ub b = .ok ((List.range d).map fun i => max (lb.getD i 0) (min (b.getD i 0) (ub.getD i 0))) := by
  rw [clipTo, C3.Lin.forN_inplace hb (fun i v => max (lb.getD i 0) (min v (ub.getD i 0)))]
  intro i hi b hb e
  have hle := h i hi
  rw [rd_getD 0 (by omega), bind_ok, rd_getD 0 (by omega), bind_ok, e]
  split
  · next h1 =>
    rw [wr_ok _ (by omega), bind_ok, rd_getD 0 (by simp; omega), bind_ok, rd_getD 0 (by omega), bind_ok]
    have e2 : (b.set i (lb.getD i 0)).getD i 0 = lb.getD i 0 := by
      simp [List.getD_eq_getElem?_getD, hb, hi]
    rw [e2, if_neg (not_lt.mpr hle), max_eq_left (le_trans (min_le_left _ _) h1.le), wr_ok _ (by omega)]; rfl
  · next h1 =>
    rw [not_lt] at h1
    rw [pure_eq_ok, bind_ok, rd_getD 0 (by omega), bind_ok, rd_getD 0 (by omega), bind_ok, e]
    split
    · next h2 => rw [min_eq_right h2.le, max_eq_right hle]
    · next h2 =>
      rw [gt_iff_lt, not_lt] at h2
      rw [min_eq_left h2, max_eq_right h1, ← e, wr_self (by omega)]; rfl

theorem moveBox_ok {d : Nat} {lb ub x p b : List K} (t : K) (hl : lb.length = d) (hu : ub.length = d) (hx : x.length = d) (hp : p.length = d)
    (hb : b.length = d) (h : ∀ i < d, lb.getD i 0 ≤ ub.getD i 0) : moveBox d lb ub x p t b = .ok (projStep d lb ub x p t) := by
  rw [moveBox, moveFree_ok t hx hp hb, bind_ok, clipTo_ok hl hu (freeStep_length ..) h]
  congr 1
  apply List.map_congr_left
  intro i hi
  have hi : i < d := by simpa using hi
  simp [freeStep, hi]

theorem btLoop_spec {f : List K → K} {mv : K → List K → C (List K)} {step : K → List K} {d : Nat} (fx dg alpha beta : K) (maxiter : Nat)
    (hstep : ∀ t, (step t).length = d) (hmv : ∀ t b, b.length = d → mv t b = .ok (step t)) (pts0 : List (List K)) :
    ∀ (fuel k : Nat), maxiter < fuel + (k + 2) → (k = 0 ∨ k + 2 ≤ maxiter) → 0 < fuel →
      (∀ j < k, ¬Decr f fx dg alpha (beta ^ j) (step (beta ^ j))) →
      ∃ k' r, btLoop f mv fx dg alpha beta maxiter fuel (k + 2) (beta ^ k) (fx + alpha * beta ^ k * dg) (step (beta ^ k))
        (f (step (beta ^ k))) (((List.range (k + 1)).reverse.map fun j => step (beta ^ j)) ++ pts0) = .ok r ∧
        Searched f step fx dg alpha beta maxiter pts0 k' r := by
  intro fuel
  induction fuel with
  | zero => intro k _ _ h; omega
  | succ fuel ih =>
    intro k hf hk _ hrej
    rw [btLoop]
    split
    · next h1 =>
      have hna : ¬Decr f fx dg alpha (beta ^ k) (step (beta ^ k)) := not_le.mpr h1
      split
      · next h2 =>
        exact ⟨k, _, rfl, rfl, rfl, rfl, hrej, rfl, Or.inr ⟨rfl, hna, h2⟩, hk⟩
      · next h2 =>
        rw [hmv _ _ (hstep _), bind_ok, ← pow_succ']
        have hp : step (beta ^ (k + 1)) :: (List.map (fun j => step (beta ^ j)) (List.range (k + 1)).reverse ++ pts0) =
            List.map (fun j => step (beta ^ j)) (List.range (k + 1 + 1)).reverse ++ pts0 := by
          rw [List.range_succ (n := k + 1)]; simp
        rw [hp]
        exact ih (k + 1) (by omega) (Or.inr (by omega)) (by omega) (by
          intro j hj
          rcases Nat.lt_succ_iff_lt_or_eq.mp hj with h | h
          · exact hrej j h
          · rw [h]; exact hna)
    · next h1 => exact ⟨k, _, rfl, rfl, rfl, rfl, hrej, rfl, Or.inl ⟨rfl, not_lt.mp h1⟩, hk⟩

theorem badParOk {alpha beta : K} (h : 0 < alpha ∧ alpha < 1 / 2) : badPar alpha beta = none := by
  have h2 : ¬(beta ≤ 0 ∧ beta ≥ 1) := fun h => absurd (le_trans h.2 h.1) (by norm_num)
  rw [badPar, if_neg (by push Not; exact h), if_neg h2]

theorem badParBad {alpha beta : K} (h : ¬(0 < alpha ∧ alpha < 1 / 2)) : badPar alpha beta = some (-1) := by
  rw [badPar, if_pos]
  by_contra hc
  push Not at hc
  exact h hc

/-- C113: `backtrack_line_search` tries `x + beta^k p`, `k = 0, 1, ...`, and accepts the first point with sufficient decrease; the returned number
is the scaling of the direction; at most `max 1 (maxiter-1)` calls of the objective. -/
theorem backtrack_spec {f : List K → K} {d : Nat} {x p newx grad : List K} (fx fnx : K) {alpha : K} (beta : K) (maxiter : Nat)
    (pts : List (List K)) (hx : x.length = d) (hp : p.length = d) (hn : newx.length = d) (hg : grad.length = d)
    (ha : 0 < alpha ∧ alpha < 1 / 2) :
    ∃ k r, backtrack f d x fx p newx fnx grad alpha beta maxiter pts = .ok r ∧
      Searched f (freeStep d x p) fx (dot d grad p) alpha beta maxiter pts k r := by
  rw [backtrack, badParOk ha]
  dsimp only
  rw [dot_ok hg hp, bind_ok, moveFree_ok 1 hx hp hn, bind_ok]
  obtain ⟨k, r, h1, h2⟩ := btLoop_spec (f := f) (mv := moveFree d x p) (step := freeStep d x p) (d := d) fx (dot d grad p) alpha beta maxiter
    (freeStep_length d x p) (fun t b hb => moveFree_ok t hx hp hb) pts (maxiter + 1) 0 (by omega) (Or.inl rfl) (by omega) (by omega)
  rw [pow_zero] at h1
  have : freeStep d x p 1 :: pts = List.map (fun j => freeStep d x p (beta ^ j)) (List.range (0 + 1)).reverse ++ pts := by simp
  rw [this, show (2 : Nat) = 0 + 2 from rfl, h1]
  exact ⟨k, r, rfl, h2⟩

/-- C113: with `alpha` outside (0,1/2) the search does nothing and reports -1. -/
theorem backtrack_rejects {f : List K → K} {d : Nat} {x p newx grad : List K} (fx fnx : K) {alpha : K} (beta : K) (maxiter : Nat)
    (pts : List (List K)) (ha : ¬(0 < alpha ∧ alpha < 1 / 2)) :
    backtrack f d x fx p newx fnx grad alpha beta maxiter pts = .ok ⟨0, newx, fnx, -1, pts⟩ := by
  rw [backtrack, badParBad ha]; rfl

/-- C113: `backtrack_line_search_bc` from a point of the box: the same search over the projected points `P(x + beta^k p)`; all of them lie in the
box. The returned number is `beta^k` multiplied by `alpha`. -/
theorem backtrackBc_spec {f : List K → K} {d : Nat} {lb ub x p newx grad : List K} (fx fnx : K) {alpha : K} (beta : K) (maxiter : Nat)
    (pts : List (List K)) (hl : lb.length = d) (hu : ub.length = d) (hx : x.length = d) (hp : p.length = d) (hn : newx.length = d)
    (hg : grad.length = d) (hin : InBox d lb ub x) (ha : 0 < alpha ∧ alpha < 1 / 2) :
    ∃ k r, backtrackBc f d lb ub x fx p newx fnx grad alpha beta maxiter pts = .ok { r with ret := r.ret * alpha } ∧
      Searched f (projStep d lb ub x p) fx (dot d grad p) alpha beta maxiter pts k r ∧ InBox d lb ub r.newx := by
  classical
  have hle : ∀ i < d, lb.getD i 0 ≤ ub.getD i 0 := fun i hi => (hin i hi).1.trans (hin i hi).2
  rw [backtrackBc, badParOk ha]
  dsimp only
  rw [violates_ok hx hl hu, bind_ok]
  have hb : (decide (¬InBox d lb ub x)) = false := decide_eq_false (not_not.mpr hin)
  rw [hb]
  simp only [Bool.false_eq_true, if_false]
  rw [dot_ok hg hp, bind_ok, moveBox_ok 1 hl hu hx hp hn hle, bind_ok]
  obtain ⟨k, r, h1, h2⟩ := btLoop_spec (f := f) (mv := moveBox d lb ub x p) (step := projStep d lb ub x p) (d := d) fx (dot d grad p) alpha beta maxiter
    (projStep_length d lb ub x p) (fun t b hb => moveBox_ok t hl hu hx hp hb hle) pts (maxiter + 1) 0 (by omega) (Or.inl rfl) (by omega) (by omega)
  rw [pow_zero] at h1
  refine ⟨k, r, ?_, h2, ?_⟩
  · have : projStep d lb ub x p 1 :: pts = List.map (fun j => projStep d lb ub x p (beta ^ j)) (List.range (0 + 1)).reverse ++ pts := by simp
    rw [this, show (2 : Nat) = 0 + 2 from rfl, h1, bind_ok]; rfl
  · rw [h2.newx]; exact projStep_inBox _ _ _ hle

/-- C113: a point outside the box is reported (-3) and nothing is done. -/
theorem backtrackBc_infeasible {f : List K → K} {d : Nat} {lb ub x p newx grad : List K} (fx fnx : K) {alpha : K} (beta : K) (maxiter : Nat)
    (pts : List (List K)) (hl : lb.length = d) (hu : ub.length = d) (hx : x.length = d) (hin : ¬InBox d lb ub x)
    (ha : 0 < alpha ∧ alpha < 1 / 2) :
    backtrackBc f d lb ub x fx p newx fnx grad alpha beta maxiter pts = .ok ⟨0, newx, fnx, -3, pts⟩ := by
  classical
  rw [backtrackBc, badParOk ha]
  dsimp only
  rw [violates_ok hx hl hu, bind_ok]
  have hb : (decide (¬InBox d lb ub x)) = true := decide_eq_true hin
  rw [hb]; rfl

/-- C113: the searches call the objective at most `max 1 (maxiter-1)` times. -/
theorem Searched.calls_le {f : List K → K} {step : K → List K} {fx dg alpha beta : K} {maxiter : Nat} {pts0 : List (List K)} {k : Nat} {r : BtR K}
    (h : Searched f step fx dg alpha beta maxiter pts0 k r) : r.pts.length ≤ max 1 (maxiter - 1) + pts0.length := by
  rw [h.calls]
  simp
  rcases h.budget with h | h <;> omega

/-- C113: if some `beta^j` within the budget gives sufficient decrease, the search succeeds, with a step that is not smaller in the order of trial. -/
theorem Searched.succeeds {f : List K → K} {step : K → List K} {fx dg alpha beta : K} {maxiter : Nat} {pts0 : List (List K)} {k : Nat} {r : BtR K}
    (h : Searched f step fx dg alpha beta maxiter pts0 k r) {j : Nat} (hj : Decr f fx dg alpha (beta ^ j) (step (beta ^ j)))
    (hm : j + 2 ≤ maxiter) : r.info = 0 ∧ k ≤ j := by
  rcases h.info with ⟨h0, _⟩ | ⟨_, h1, h2⟩
  · refine ⟨h0, ?_⟩
    by_contra hc
    exact h.rejected j (by omega) hj
  · exfalso
    rcases Nat.lt_or_ge j k with hk | hk
    · exact h.rejected j hk hj
    · rcases Nat.lt_or_ge k j with h3 | h3
      · omega
      · have : j = k := by omega
        subst this
        exact h1 (h.newx ▸ hj)

/-- C113: along a direction of descent a successful search never increases the objective. -/
theorem Searched.descent {f : List K → K} {step : K → List K} {fx dg alpha beta : K} {maxiter : Nat} {pts0 : List (List K)} {k : Nat} {r : BtR K}
    (h : Searched f step fx dg alpha beta maxiter pts0 k r) (ha : 0 ≤ alpha) (hb : 0 ≤ beta) (hd : dg ≤ 0) (h0 : r.info = 0) :
    r.fnx ≤ fx := by
  rcases h.info with ⟨_, h1⟩ | ⟨h1, _⟩
  · rw [h.fnx]
    refine le_trans h1 ?_
    have : alpha * beta ^ k * dg ≤ 0 := mul_nonpos_of_nonneg_of_nonpos (mul_nonneg ha (pow_nonneg hb k)) hd
    linarith
  · omega

end C3.Opt

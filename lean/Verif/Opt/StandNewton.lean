/-
Newton's method and damped Newton on a box.
-/
import Verif.Opt.StandProps
import Mathlib.Tactic.NormNum

set_option linter.unusedSectionVars false

namespace C3.Opt
open Finset

variable {K : Type} [Field K] [LinearOrder K] [IsStrictOrderedRing K]

/-- The product of a column-major `d*d` buffer and a vector. -/
def cmv (d : Nat) (H z : List K) (i : Nat) : K := ∑ j ∈ range d, H.getD (i + j * d) 0 * z.getD j 0

/-- What is assumed of `dgesv_`: if it reports no error, the right hand side is replaced by a solution of `H z = b`. -/
def Solves (solve : List K → List K → Option (List K)) (d : Nat) : Prop :=
  ∀ H b z, H.length = d * d → b.length = d → solve H b = some z → z.length = d ∧ ∀ i < d, cmv d H z i = b.getD i 0

/-- The new iterate of Newton's method. -/
def newtonStep (d : Nat) (step : K) (x z : List K) : List K := (List.range d).map fun i => x.getD i 0 - step * z.getD i 0

theorem newtonUpdate_ok {d : Nat} (step : K) {x z : List K} (hx : x.length = d) (hz : z.length = d) :
    forN d (fun ii (s : List K × K) => do
      let v ← rd s.1 ii
      let w ← rd z ii
      let b ← wr s.1 ii (v - step * w)
      pure (b, s.2 + (step * w) ^ 2)) (x, 0) = .ok (newtonStep d step x z, ∑ i ∈ range d, (step * z.getD i 0) ^ 2) := by
  obtain ⟨s, h1, h2, h3, h4⟩ := forN_spec (body := fun ii (s : List K × K) => do
      let v ← rd s.1 ii
      let w ← rd z ii
      let b ← wr s.1 ii (v - step * w)
      pure (b, s.2 + (step * w) ^ 2)) (n := d) (s := (x, 0))
    (I := fun k s => s.1.length = d ∧ s.2 = ∑ i ∈ range k, (step * z.getD i 0) ^ 2 ∧
      ∀ i < d, s.1.getD i 0 = if i < k then x.getD i 0 - step * z.getD i 0 else x.getD i 0)
    (by simp [hx]) (by
      rintro i hi ⟨b, a⟩ ⟨e1, e2, e3⟩
      dsimp only at e1 e2 e3 ⊢
      rw [rd_getD 0 (by omega), bind_ok, rd_getD 0 (by omega), bind_ok, wr_ok _ (by omega), bind_ok]
      refine ⟨_, rfl, by simp [e1], ?_, ?_⟩
      · rw [sum_range_succ, e2]
      · intro j hj
        dsimp only
        rw [List.getD_eq_getElem?_getD, List.getElem?_set]
        by_cases e : i = j
        · subst e
          rw [if_pos rfl, if_pos (by omega), if_pos (by omega), e3 i hi, if_neg (by omega)]; rfl
        · rw [if_neg e, ← List.getD_eq_getElem?_getD, e3 j hj]
          by_cases h : j < i
          · rw [if_pos h, if_pos (by omega)]
          · rw [if_neg h, if_neg (by omega)])
  rw [h1]
  congr 1
  refine Prod.ext ?_ h3
  apply List.ext_getElem
  · simp [newtonStep, h2]
  · intro i e1 e2
    have hi : i < d := by omega
    have := h4 i hi
    rw [if_pos hi, List.getD_eq_getElem?_getD, List.getElem?_eq_getElem e1, Option.getD_some] at this
    rw [this]; simp [newtonStep]

/-- One pass of the loop. -/
theorem newton_succ {sq : K → K} {solve : List K → List K → Option (List K)} {d : Nat} (step tol : K) {g h : List K → List K} {x z : List K} (fuel : Nat)
    (hs : solve (h x) (g x) = some z) (hx : x.length = d) (hz : z.length = d) :
    newton sq solve d step tol g h (fuel + 1) x =
      if sq (∑ i ∈ range d, (step * z.getD i 0) ^ 2) < tol then .ok (newtonStep d step x z)
      else newton sq solve d step tol g h fuel (newtonStep d step x z) := by
  rw [newton, dgesv, hs]
  dsimp only
  rw [pure_eq_ok, bind_ok, newtonUpdate_ok step hx hz, bind_ok]; rfl

/-- C115: if `newton` ends, the result is a Newton step from a point where that step was shorter than the tolerance. -/
theorem newton_exit {sq : K → K} {solve : List K → List K → Option (List K)} {d : Nat} (hs : Solves solve d) {step tol : K} {g h : List K → List K}
    (hg : ∀ x, (g x).length = d) (hh : ∀ x, (h x).length = d * d) :
    ∀ (fuel : Nat) (x y : List K), x.length = d → newton sq solve d step tol g h fuel x = .ok y →
      ∃ x' z, x'.length = d ∧ z.length = d ∧ (∀ i < d, cmv d (h x') z i = (g x').getD i 0) ∧ y = newtonStep d step x' z ∧
        sq (∑ i ∈ range d, (step * z.getD i 0) ^ 2) < tol := by
  intro fuel
  induction fuel with
  | zero => intro x y _ h; rw [newton] at h; cases h
  | succ fuel ih =>
    intro x y hx hy
    cases e : solve (h x) (g x) with
    | none => rw [newton, dgesv, e] at hy; cases hy
    | some z =>
      obtain ⟨hz, hsol⟩ := hs _ _ z (hh x) (hg x) e
      rw [newton_succ step tol fuel e hx hz] at hy
      split at hy
      · next hlt => exact ⟨x, z, hx, hz, hsol, by cases hy; rfl, hlt⟩
      · exact ih _ y (by simp [newtonStep]) hy

theorem cmv_newtonStep (d : Nat) (A x z : List K) (i : Nat) : cmv d A (newtonStep d 1 x z) i = cmv d A x i - cmv d A z i := by
  rw [cmv, cmv, cmv, ← sum_sub_distrib]
  apply sum_congr rfl
  intro j hj
  have hj := mem_range.mp hj
  simp [newtonStep, hj]; ring

/-- C115: for a quadratic objective (gradient `A x - b`, Hessian `A`) with nonsingular `A` and step size 1, Newton's method ends after at most two passes at a point with zero
gradient. -/
theorem newton_quadratic {sq : K → K} {solve : List K → List K → Option (List K)} {d : Nat} (hs : Solves solve d) {tol : K} (htol : sq 0 < tol) {A b : List K}
    (hA : A.length = d * d) (hreg : ∀ r : List K, r.length = d → ∃ z, solve A r = some z)
    (hinj : ∀ z : List K, (∀ i < d, cmv d A z i = 0) → ∀ i < d, z.getD i 0 = 0) {g : List K → List K} (hg : ∀ x, (g x).length = d)
    (hgv : ∀ x, ∀ i < d, (g x).getD i 0 = cmv d A x i - b.getD i 0) {x : List K} (hx : x.length = d) {fuel : Nat} (hf : 2 ≤ fuel) :
    ∃ y, newton sq solve d 1 tol g (fun _ => A) fuel x = .ok y ∧ ∀ i < d, (g y).getD i 0 = 0 := by
  obtain ⟨fuel, rfl⟩ : ∃ n, fuel = n + 1 + 1 := ⟨fuel - 2, by omega⟩
  obtain ⟨z, hz⟩ := hreg (g x) (hg x)
  obtain ⟨hzl, hzs⟩ := hs A _ z hA (hg x) hz
  have hg1 : ∀ i < d, (g (newtonStep d 1 x z)).getD i 0 = 0 := by
    intro i hi
    rw [hgv _ i hi, cmv_newtonStep, hzs i hi, hgv x i hi]; ring
  rw [newton_succ 1 tol (fuel + 1) hz hx hzl]
  split
  · exact ⟨_, rfl, hg1⟩
  · obtain ⟨z2, hz2⟩ := hreg (g (newtonStep d 1 x z)) (hg _)
    obtain ⟨hzl2, hzs2⟩ := hs A _ z2 hA (hg _) hz2
    have h0 := hinj z2 (fun i hi => by rw [hzs2 i hi, hg1 i hi])
    rw [newton_succ 1 tol fuel hz2 (by simp [newtonStep]) hzl2, if_pos]
    · refine ⟨_, rfl, fun i hi => ?_⟩
      rw [hgv _ i hi, cmv_newtonStep, hzs2 i hi, hg1 i hi, sub_zero, ← hgv _ i hi, hg1 i hi]
    · rw [sum_eq_zero]
      · exact htol
      · intro i hi
        rw [h0 i (mem_range.mp hi)]; ring

/-- The one-dimensional solver. -/
def solve1 (H b : List ℚ) : Option (List ℚ) := if H.getD 0 0 = 0 then none else some [b.getD 0 0 / H.getD 0 0]

theorem solve1_ok : Solves solve1 1 := by
  intro H b z hH hb h
  rw [solve1] at h
  split at h
  · cases h
  · next h0 =>
    cases h
    refine ⟨rfl, fun i hi => ?_⟩
    have : i = 0 := by omega
    subst this
    simp [cmv] at h0 ⊢
    field_simp

/-- Instance: `f(x) = 3x^2/2 - 6x`. -/
example : ∃ y, newton (fun s => s) solve1 1 1 (1 / 1000) (fun x => [3 * x.getD 0 0 - 6]) (fun _ => [3]) 2 [5] = .ok y ∧
    ∀ i < 1, ((fun x : List ℚ => [3 * x.getD 0 0 - 6]) y).getD i 0 = 0 := by
  refine newton_quadratic (b := [6]) solve1_ok (by norm_num) rfl (fun r _ => ⟨_, by rw [solve1, if_neg (by simp)]⟩) ?_ (fun _ => rfl) ?_ rfl (by omega)
  · intro z hz i hi
    have : i = 0 := by omega
    subst this
    have := hz 0 (by omega)
    simpa [cmv] using this
  · intro x i hi
    have : i = 0 := by omega
    subst this
    simp [cmv]

/-- C115, the property fails: the loop is not bounded. With gradient `x^3-2x+2` and its derivative, started at 0, Newton's method alternates between 0 and 1 for ever. -/
theorem newton_diverges (fuel : Nat) :
    newton (fun s => s) solve1 1 1 (1 / 1000) (fun x => [x.getD 0 0 ^ 3 - 2 * x.getD 0 0 + 2]) (fun x => [3 * x.getD 0 0 ^ 2 - 2]) fuel [0] =
        .error .diverge ∧
      newton (fun s => s) solve1 1 1 (1 / 1000) (fun x => [x.getD 0 0 ^ 3 - 2 * x.getD 0 0 + 2]) (fun x => [3 * x.getD 0 0 ^ 2 - 2]) fuel [1] =
        .error .diverge := by
  induction fuel with
  | zero => exact ⟨rfl, rfl⟩
  | succ n ih =>
    constructor
    · rw [newton_succ (d := 1) (x := [0]) (z := [(-1 : ℚ)]) _ _ n (by decide +kernel) rfl rfl, if_neg (by decide +kernel),
        show newtonStep 1 (1 : ℚ) [0] [-1] = [1] by decide +kernel]
      exact ih.2
    · rw [newton_succ (d := 1) (x := [1]) (z := [(1 : ℚ)]) _ _ n (by decide +kernel) rfl rfl, if_neg (by decide +kernel),
        show newtonStep 1 (1 : ℚ) [1] [1] = [0] by decide +kernel]
      exact ih.1

/-- The derivatives of the callbacks are available at `y`, and `w` is the Newton step there. -/
structure NewtonAt (solve : List K → List K → Option (List K)) (c : Cb K) (d : Nat) (y w : List K) : Prop where
  g : (c.g y).1 = 0
  h : (c.h y).1 = 0
  step : solve (c.h y).2 (c.g y).2 = some w
  len : w.length = d

/-- An accepted move of the damped Newton method. -/
def DnMove (solve : List K → List K → Option (List K)) (c : Cb K) (p : StPar K) (lb ub y z : List K) : Prop :=
  ∃ w k, NewtonAt solve c p.d y w ∧ (k = 0 ∨ k + 2 ≤ p.maxsub) ∧ z = projStep p.d lb ub y (vneg w) (p.beta ^ k) ∧
    c.f z ≤ c.f y - p.alpha * p.beta ^ k * dot p.d (c.g y).2 w ∧
    ∀ j < k, c.f y - p.alpha * p.beta ^ j * dot p.d (c.g y).2 w < c.f (projStep p.d lb ub y (vneg w) (p.beta ^ j))

/-- How `box_damp_newton` can end, started at `x`, after `n` accepted moves that lead to `y`. -/
structure DnOut (solve : List K → List K → Option (List K)) (c : Cb K) (p : StPar K) (lb ub x : List K) (r : StRes K) (n : Nat) (y : List K) : Prop where
  len : r.x.length = p.d
  fval : r.fval = c.f r.x
  inBox : InBox p.d lb ub r.x
  steps : Steps (DnMove solve c p lb ub) n x y
  iters : n ≤ max 1 p.maxiter
  calls : r.pts.length ≤ 1 + max 1 p.maxiter * max 1 (p.maxsub - 1)
  code : (r.ret = 0 ∧ r.x = y ∧ r.grad = (c.g y).2 ∧ ∃ w, NewtonAt solve c p.d y w ∧
      (((n = 0 ∨ Inside p.d lb ub y) ∧ dot p.d r.grad w * dot p.d r.grad w / 2 < p.tol) ∨
        (¬Inside p.d lb ub y ∧ ∃ v m, n = m + 1 ∧ Steps (DnMove solve c p lb ub) m x v ∧ DnMove solve c p lb ub v y ∧ dist2 p.d y v < p.tol))) ∨
    (r.ret = 1 ∧ r.x = y ∧ p.maxiter ≤ n ∧ 1 ≤ n) ∨
    (r.ret = -20 + (c.g y).1 ∧ r.x = y ∧ (c.g y).1 ≠ 0) ∨
    (r.ret = -30 + (c.h y).1 ∧ r.x = y ∧ (c.g y).1 = 0 ∧ (c.h y).1 ≠ 0) ∨
    (r.ret = 1 ∧ ∃ w k, NewtonAt solve c p.d y w ∧ p.maxsub ≤ k + 2 ∧ r.x = projStep p.d lb ub y (vneg w) (p.beta ^ k) ∧
      ∀ j ≤ k, c.f y - p.alpha * p.beta ^ j * dot p.d (c.g y).2 w < c.f (projStep p.d lb ub y (vneg w) (p.beta ^ j)))

theorem sumsq_ok {a b : List K} {n : Nat} (ha : a.length = n) (hb : b.length = n) : sumsq n a b = .ok (dist2 n a b) := by
  rw [sumsq, forN_sum (fun i => (a.getD i 0 - b.getD i 0) ^ 2)]
  · rw [zero_add]; rfl
  · intro i hi s
    rw [rd_getD 0 (by omega), bind_ok, rd_getD 0 (by omega), bind_ok]; rfl

/-- The linear systems met by the method can be solved: `dgesv_` reports no error at any point of the box where the derivatives are available. -/
def Solvable (solve : List K → List K → Option (List K)) (c : Cb K) (d : Nat) (lb ub : List K) : Prop :=
  ∀ y, y.length = d → InBox d lb ub y → (c.g y).1 = 0 → (c.h y).1 = 0 → ∃ w, solve (c.h y).2 (c.g y).2 = some w ∧ w.length = d

theorem dn_cases {c : Cb K} {p : StPar K} {lb ub y w : List K} {pts0 : List (List K)} {k : Nat} {r : BtR K}
    (h : Searched c.f (projStep p.d lb ub y (vneg w)) (c.f y) (dot p.d (c.g y).2 (vneg w)) p.alpha p.beta p.maxsub pts0 k r) :
    (∀ j < k, c.f y - p.alpha * p.beta ^ j * dot p.d (c.g y).2 w < c.f (projStep p.d lb ub y (vneg w) (p.beta ^ j))) ∧
    ((r.info = 0 ∧ c.f r.newx ≤ c.f y - p.alpha * p.beta ^ k * dot p.d (c.g y).2 w) ∨
      (r.info = 1 ∧ p.maxsub ≤ k + 2 ∧ c.f y - p.alpha * p.beta ^ k * dot p.d (c.g y).2 w < c.f r.newx)) := by
  have hd : ∀ (t : K) (z : List K), Decr c.f (c.f y) (dot p.d (c.g y).2 (vneg w)) p.alpha t z ↔ c.f z ≤ c.f y - p.alpha * t * dot p.d (c.g y).2 w := by
    intro t z
    rw [Decr, dot_vneg, mul_neg, ← sub_eq_add_neg]
  refine ⟨fun j hj => ?_, ?_⟩
  · have := h.rejected j hj
    rw [hd] at this
    exact not_le.mp this
  · rcases h.info with ⟨h1, h2⟩ | ⟨h1, h2, h3⟩
    · exact Or.inl ⟨h1, (hd _ _).mp h2⟩
    · rw [hd] at h2
      exact Or.inr ⟨h1, h3, not_le.mp h2⟩

theorem dnLoop_spec {solve : List K → List K → Option (List K)} {c : Cb K} {p : StPar K} {lb ub : List K} (hl : lb.length = p.d) (hu : ub.length = p.d)
    (hc : c.Len p.d) (hsol : Solvable solve c p.d lb ub) (ha : 0 < p.alpha ∧ p.alpha < 1 / 2) (x0 : List K) :
    ∀ (fuel n : Nat) (x cur w : List K) (pts : List (List K)), p.maxiter < fuel + (n + 1) → n + 1 ≤ max 1 p.maxiter → 0 < fuel →
      x.length = p.d → InBox p.d lb ub x → cur.length = p.d → NewtonAt solve c p.d x w →
      Steps (DnMove solve c p lb ub) n x0 x → pts.length ≤ 1 + n * max 1 (p.maxsub - 1) →
      ∃ r n' y, dnLoop solve c p lb ub fuel (n + 1) x (c.f x) (c.g x).2 cur w pts = .ok r ∧ DnOut solve c p lb ub x0 r n' y := by
  classical
  intro fuel
  induction fuel with
  | zero => intro n x cur w pts _ _ h; omega
  | succ fuel ih =>
    intro n x cur w pts hf hn _ hx hin hcur hw hs hp
    have hvn : (vneg w).length = p.d := by simp [vneg, hw.len]
    rw [dnLoop, dcopy_ok hx hcur, bind_ok, neg_copy_ok hw.len, bind_ok]
    obtain ⟨k, r, h1, h2, hbox⟩ := backtrackBc_spec (f := c.f) (c.f x) (c.f x) p.beta p.maxsub pts hl hu hx hvn hx (hc x) hin ha
    rw [h1, bind_ok]
    dsimp only
    have hcl := h2.calls_le
    have hcl2 : r.pts.length ≤ 1 + (n + 1) * max 1 (p.maxsub - 1) := by
      rw [Nat.add_mul, Nat.one_mul]; omega
    have hcl3 : r.pts.length ≤ 1 + max 1 p.maxiter * max 1 (p.maxsub - 1) :=
      hcl2.trans (Nat.add_le_add_left (Nat.mul_le_mul_right _ hn) 1)
    have hlen : r.newx.length = p.d := by rw [h2.newx, projStep_length]
    obtain ⟨hrej, ⟨h3, h4⟩ | ⟨h3, h5, h4⟩⟩ := dn_cases h2
    · rw [if_neg (by simp [h3])]
      have hmove : DnMove solve c p lb ub x r.newx := ⟨w, k, hw, h2.budget, h2.newx, h4, hrej⟩
      have hs' := hs.succ hmove
      split
      · next h5 => exact ⟨_, n + 1, r.newx, rfl, hlen, h2.fnx, hbox, hs', hn, hcl3, Or.inr (Or.inl ⟨rfl, rfl, by omega, by omega⟩)⟩
      · next h5 =>
        split
        · next h6 => exact ⟨_, n + 1, r.newx, rfl, hlen, h2.fnx, hbox, hs', hn, hcl3, Or.inr (Or.inr (Or.inl ⟨rfl, rfl, h6⟩))⟩
        · next h6 =>
          have h6 : (c.g r.newx).1 = 0 := not_not.mp h6
          split
          · next h7 => exact ⟨_, n + 1, r.newx, rfl, hlen, h2.fnx, hbox, hs', hn, hcl3, Or.inr (Or.inr (Or.inr (Or.inl ⟨rfl, rfl, h6, h7⟩)))⟩
          · next h7 =>
            have h7 : (c.h r.newx).1 = 0 := not_not.mp h7
            obtain ⟨w', hw', hwl⟩ := hsol r.newx hlen hbox h6 h7
            have hat : NewtonAt solve c p.d r.newx w' := ⟨h6, h7, hw', hwl⟩
            rw [dgesv, hw']
            dsimp only
            rw [pure_eq_ok, bind_ok, dot_ok (hc _) hwl, bind_ok, onBound_ok hlen hl hu, bind_ok, sumsq_ok hlen hx, bind_ok]
            have hih := ih (n + 1) r.newx x w' r.pts (by omega) (le_trans (not_lt.mp h5) (le_max_right _ _)) (by omega) hlen hbox hx hat hs' hcl2
            rw [← h2.fnx] at hih
            by_cases hI : Inside p.d lb ub r.newx
            · simp only [decide_eq_false (not_not.mpr hI), Bool.false_eq_true, if_false]
              split
              · next h8 =>
                exact ⟨_, n + 1, r.newx, rfl, hlen, h2.fnx, hbox, hs', hn, hcl3, Or.inl ⟨rfl, rfl, rfl, w', hat, Or.inl ⟨Or.inr hI, h8⟩⟩⟩
              · exact hih
            · simp only [decide_eq_true hI, if_true]
              split
              · next h8 =>
                exact ⟨_, n + 1, r.newx, rfl, hlen, h2.fnx, hbox, hs', hn, hcl3, Or.inl ⟨rfl, rfl, rfl, w', hat, Or.inr ⟨hI, x, n, rfl, hs, hmove, h8⟩⟩⟩
              · exact hih
    · rw [if_pos (by simp [h3])]
      refine ⟨_, n, x, rfl, hlen, h2.fnx, hbox, hs, by omega, hcl3, Or.inr (Or.inr (Or.inr (Or.inr ⟨h3, w, k, hw, h5, h2.newx, ?_⟩)))⟩
      intro j hj
      rcases Nat.lt_or_ge j k with hk | hk
      · exact hrej j hk
      · have : j = k := by omega
        subst this
        rw [h2.newx] at h4
        exact h4

/-- C115: `box_damp_newton` from a point of the box, with a valid `alpha` and solvable systems, always ends in the box; `*fval` is the objective at the final point and the return
code tells how it ended. -/
theorem boxDampNewton_spec {solve : List K → List K → Option (List K)} {c : Cb K} {p : StPar K} {lb ub : List K} (hl : lb.length = p.d) (hu : ub.length = p.d)
    (hc : c.Len p.d) (hsol : Solvable solve c p.d lb ub) (ha : 0 < p.alpha ∧ p.alpha < 1 / 2) {x cur : List K} (hx : x.length = p.d) (hin : InBox p.d lb ub x)
    (hcur : cur.length = p.d) : ∃ r n y, boxDampNewton solve c p lb ub x cur = .ok r ∧ DnOut solve c p lb ub x r n y := by
  rw [boxDampNewton]
  split
  · next h1 =>
    exact ⟨_, 0, x, rfl, hx, rfl, hin, Steps.zero x, by omega, by simp, Or.inr (Or.inr (Or.inl ⟨rfl, rfl, h1⟩))⟩
  · next h1 =>
    have h1 : (c.g x).1 = 0 := not_not.mp h1
    split
    · next h2 =>
      exact ⟨_, 0, x, rfl, hx, rfl, hin, Steps.zero x, by omega, by simp, Or.inr (Or.inr (Or.inr (Or.inl ⟨rfl, rfl, h1, h2⟩)))⟩
    · next h2 =>
      have h2 : (c.h x).1 = 0 := not_not.mp h2
      obtain ⟨w, hw, hwl⟩ := hsol x hx hin h1 h2
      have hat : NewtonAt solve c p.d x w := ⟨h1, h2, hw, hwl⟩
      rw [dgesv, hw]
      dsimp only
      rw [pure_eq_ok, bind_ok, dot_ok (hc _) hwl, bind_ok]
      split
      · next h3 =>
        exact ⟨_, 0, x, rfl, hx, rfl, hin, Steps.zero x, by omega, by simp, Or.inl ⟨rfl, rfl, rfl, w, hat, Or.inl ⟨Or.inl rfl, h3⟩⟩⟩
      · exact dnLoop_spec hl hu hc hsol ha x (p.maxiter + 1) 0 x cur w [x] (by omega) (by omega) (by omega) hx hin hcur hat (Steps.zero x) (by simp)

/-- C115: where the Hessian is positive semidefinite, a move of the damped Newton method does not increase the objective. -/
theorem DnMove.descent {solve : List K → List K → Option (List K)} {c : Cb K} {p : StPar K} {lb ub y z : List K} (hs : Solves solve p.d) (hc : c.Len p.d)
    (hh : (c.h y).2.length = p.d * p.d) (hpsd : ∀ w : List K, 0 ≤ ∑ i ∈ range p.d, w.getD i 0 * cmv p.d (c.h y).2 w i) (ha : 0 ≤ p.alpha) (hb : 0 ≤ p.beta)
    (h : DnMove solve c p lb ub y z) : c.f z ≤ c.f y := by
  obtain ⟨w, k, hw, _, _, h1, _⟩ := h
  have h2 : 0 ≤ dot p.d (c.g y).2 w := by
    have := hpsd w
    rw [dot, sum_congr rfl (fun i hi => ?_)]
    · exact this
    · rw [(hs _ _ _ hh (hc y) hw.step).2 i (mem_range.mp hi), mul_comm]
  have := mul_nonneg (mul_nonneg ha (pow_nonneg hb k)) h2
  linarith

/-- `f(x) = (x-1)^2` on `[-3,3]`. -/
def exNewt : Cb ℚ := ⟨fun x => (x.getD 0 0 - 1) ^ 2, fun x => (0, [2 * (x.getD 0 0 - 1)]), fun _ => (0, [2])⟩

example : Solvable solve1 exNewt 1 [-3] [3] ∧ exNewt.Len 1 ∧ InBox 1 [-3] [3] ([0] : List ℚ) :=
  ⟨fun y _ _ _ _ => ⟨[2 * (y.getD 0 0 - 1) / 2], by simp [solve1, exNewt]⟩, fun _ => rfl, by
    intro i hi
    have : i = 0 := by omega
    subst this
    norm_num⟩

/-- One Newton step reaches the minimum inside the box. -/
example : (boxDampNewton solve1 exNewt ⟨1, 1 / 100, 10, 10, 1 / 4, 1 / 2⟩ [-3] [3] [0] [0]).map (fun r => (r.x, r.fval, r.ret)) = .ok ([1], 0, 0) := by
  decide +kernel

/-- C115, the property fails: the documented result `hess` is the factorised matrix, and for a constrained minimum with a gradient pointing out of the box the line search cannot
succeed: minimizing `(x-1)^2` on `[-3,0]` from the minimum 0 reports code 1. -/
theorem boxDampNewton_boundary_counterexample :
    (boxDampNewton solve1 exNewt ⟨1, 1 / 100, 100, 100, 1 / 4, 1 / 2⟩ [-3] [0] [0] [0]).map (fun r => (r.x, r.fval, r.ret)) = .ok ([0], 1, 1) := by
  decide +kernel

end C3.Opt

/-
`c3opt_check_deriv` and `c3opt_check_deriv_each` of c3/lib_optimization/optimization.c (C135): the comparison of the gradient of an
objective with central differences. Numbers are elements of an ordered field, `sqrt` is the argument `sq`. The objective is a function
of the point (value and gradient), as in Opt/Model.lean. The NaN check of `c3opt_eval` has no counterpart.
-/
import Verif.Core.Mem
import Verif.Core.Sum
import Mathlib.Algebra.Order.Field.Basic
import Mathlib.Algebra.Order.Ring.Rat
import Mathlib.Algebra.BigOperators.Group.Finset.Basic
import Mathlib.Algebra.Order.BigOperators.Ring.Finset
import Mathlib.Tactic.FieldSimp
import Mathlib.Tactic.Ring
import Mathlib.Tactic.Linarith
import Mathlib.Tactic.IntervalCases

namespace C3.Cd

variable {K : Type} [Field K] [LinearOrder K]

/-- The variables of the loop: the two moved points, `diff`, `norm`, the array `diffs` and the counter `opt->nevals`. -/
structure St (K : Type) where
  x1 : List K
  x2 : List K
  diff : K
  norm : K
  diffs : List K
  nev : Nat

/-- One pass of the loop, optimization.c:1042-1053 and 1091-1111. Division by `eps = 0` is outside the model. -/
def body (f : List K → K) (grad : List K) (eps : K) (i : Nat) (s : St K) : C (St K) := do
  let a ← rd s.x1 i
  let x1 ← wr s.x1 i (a + eps)
  let b ← rd s.x2 i
  let x2 ← wr s.x2 i (b - eps)
  let v1 := f x1
  let v2 := f x2
  cdivz eps
  let g ← rd grad i
  let fd := (v1 - v2) / 2 / eps
  let diffs ← wr s.diffs i (fd - g)
  let a' ← rd x1 i
  let x1' ← wr x1 i (a' - eps)
  let b' ← rd x2 i
  let x2' ← wr x2 i (b' + eps)
  .ok ⟨x1', x2', s.diff + (fd - g) ^ 2, s.norm + fd ^ 2, diffs, s.nev + 2⟩
where
  /-- `/eps` -/
  cdivz (e : K) : C Unit := if e = 0 then .error .ub else .ok ()

/-- optimization.c:1068-1120 `c3opt_check_deriv_each` (and 1024-1066 `c3opt_check_deriv`, which is the same without the array): the
returned number, the array `diffs` and the counter. The objective writes its gradient at `x` into a buffer of `d` numbers. -/
def checkDeriv (sq : K → K) (d : Nat) (f : List K → K) (g : List K → List K) (x : List K) (eps : K) (diffs : List K) (nev : Nat) :
    C (K × List K × Nat) := do
  let x1 ← forN d (fun i (b : List K) => do let v ← rd x i; wr b i v) (List.replicate d 0)
  let x2 ← forN d (fun i (b : List K) => do let v ← rd x i; wr b i v) (List.replicate d 0)
  let grad := g (x.take d)
  let s ← forN d (body f grad eps) ⟨x1, x2, 0, 0, diffs, nev + 1⟩
  let diff := if 1 < s.norm then s.diff / s.norm else s.diff
  .ok (sq diff, s.diffs, s.nev)

/-! ## Specification -/

/-- The point moved by `t` along coordinate `i`. -/
def shift (x : List K) (i : Nat) (t : K) : List K := x.set i (x.getD i 0 + t)

/-- The central difference along coordinate `i`. -/
def central (f : List K → K) (x : List K) (eps : K) (i : Nat) : K := (f (shift x i eps) - f (shift x i (-eps))) / (2 * eps)

/-! ## Proofs -/

omit [LinearOrder K] in
theorem copyX (x : List K) (d : Nat) (hx : d ≤ x.length) :
    forN d (fun i (b : List K) => do let v ← rd x i; wr b i v) (List.replicate d 0) = .ok (x.take d) := by
  obtain ⟨b, hb, h⟩ := forN_spec (body := fun i (b : List K) => (do let v ← rd x i; wr b i v : C (List K)))
    (I := fun k b => b = x.take k ++ List.replicate (d - k) 0) (s := List.replicate d 0) (n := d) (by simp)
    (by
      intro i hi b hb
      refine ⟨b.set i x[i], ?_, ?_⟩
      · rw [rd_ok (show i < x.length by omega), bind_ok]
        exact wr_ok _ (by rw [hb]; simp; omega)
      · rw [hb]
        have e : d - i = (d - (i + 1)) + 1 := by omega
        rw [e, List.replicate_succ, List.take_succ_eq_append_getElem (by omega), List.append_assoc,
          List.set_append_right _ _ (by simp)]
        congr 1
        rw [List.length_take, Nat.min_eq_left (by omega), Nat.sub_self]
        rfl)
  rw [hb, h]
  simp

theorem check_ok (sq : K → K) (d : Nat) (f : List K → K) (g : List K → List K) (x : List K) {eps : K} (he : eps ≠ 0)
    (diffs : List K) (nev : Nat) (hx : x.length = d) (hg : (g x).length = d) (hd : diffs.length = d) :
    ∃ out, checkDeriv sq d f g x eps diffs nev =
        .ok (sq (if 1 < ∑ i ∈ Finset.range d, central f x eps i ^ 2 then
            (∑ i ∈ Finset.range d, (central f x eps i - (g x).getD i 0) ^ 2) / ∑ i ∈ Finset.range d, central f x eps i ^ 2
          else ∑ i ∈ Finset.range d, (central f x eps i - (g x).getD i 0) ^ 2), out, nev + 1 + 2 * d) ∧
      out.length = d ∧ ∀ i, i < d → out.getD i 0 = central f x eps i - (g x).getD i 0 := by
  have htake : x.take d = x := List.take_of_length_le (by omega)
  have hcx := copyX x d (by omega)
  rw [htake] at hcx
  obtain ⟨s, hs, h1, h2, h3, h4, h5, h6, h7⟩ := forN_spec (body := body f (g x) eps)
    (I := fun k (s : St K) => s.x1 = x ∧ s.x2 = x ∧
      s.diff = ∑ i ∈ Finset.range k, (central f x eps i - (g x).getD i 0) ^ 2 ∧
      s.norm = ∑ i ∈ Finset.range k, central f x eps i ^ 2 ∧ s.diffs.length = d ∧
      (∀ i, i < k → s.diffs.getD i 0 = central f x eps i - (g x).getD i 0) ∧ s.nev = nev + 1 + 2 * k)
    (s := ⟨x, x, 0, 0, diffs, nev + 1⟩) (n := d) ⟨rfl, rfl, by simp, by simp, hd, by simp, rfl⟩
    (by
      rintro i hi ⟨x1, x2, di, no, ds, nv⟩ ⟨e1, e2, e3, e4, e5, e6, e7⟩
      dsimp only at e1 e2 e3 e4 e5 e6 e7
      subst e1 e2
      have hix : i < x2.length := by omega
      have hgi : i < (g x2).length := by omega
      have ex : x2.getD i 0 = x2[i] := by
        rw [List.getD_eq_getElem?_getD, List.getElem?_eq_getElem hix, Option.getD_some]
      have eg : (g x2).getD i 0 = (g x2)[i] := by
        rw [List.getD_eq_getElem?_getD, List.getElem?_eq_getElem hgi, Option.getD_some]
      have ec : (f (x2.set i (x2[i] + eps)) - f (x2.set i (x2[i] - eps))) / 2 / eps = central f x2 eps i := by
        simp only [central, shift, ex, ← sub_eq_add_neg, div_div]
      refine ⟨⟨x2, x2, di + (central f x2 eps i - (g x2)[i]) ^ 2, no + central f x2 eps i ^ 2,
        ds.set i (central f x2 eps i - (g x2)[i]), nv + 2⟩, ?_, rfl, rfl, ?_, ?_, ?_, ?_, ?_⟩
      · simp only [body]
        rw [rd_ok hix, bind_ok, wr_ok (a := x2) _ hix, bind_ok, bind_ok, wr_ok (a := x2) _ hix, bind_ok]
        simp only [body.cdivz, if_neg he, bind_ok]
        rw [rd_ok hgi, bind_ok, ec, wr_ok (a := ds) _ (by omega), bind_ok,
          rd_ok (show i < (x2.set i (x2[i] + eps)).length by simpa using hix), bind_ok,
          wr_ok (a := x2.set i (x2[i] + eps)) _ (by simpa using hix), bind_ok,
          rd_ok (show i < (x2.set i (x2[i] - eps)).length by simpa using hix), bind_ok,
          wr_ok (a := x2.set i (x2[i] - eps)) _ (by simpa using hix), bind_ok]
        simp
      · dsimp only
        rw [Finset.sum_range_succ, e3, eg]
      · dsimp only
        rw [Finset.sum_range_succ, e4]
      · simpa using e5
      · intro j hj
        by_cases hji : j = i
        · subst hji
          rw [List.getD_eq_getElem?_getD, List.getElem?_set_self (by omega), eg]
          rfl
        · rw [List.getD_eq_getElem?_getD, List.getElem?_set_ne (fun h => hji h.symm), ← List.getD_eq_getElem?_getD]
          exact e6 j (by omega)
      · dsimp only
        omega)
  refine ⟨s.diffs, ?_, h5, h6⟩
  simp only [checkDeriv, hcx, bind_ok, htake, hs, h3, h4, h7]

/-- **What the derivative check computes**: for every objective, gradient, point and step the check asks for one gradient and two values
per variable, restores the points exactly, fills the array with the errors "central difference minus gradient" and returns the square
root of their sum of squares, divided by the sum of squares of the central differences if that is larger than one. (Floating point
rounding of `x + eps - eps` is not modelled.) -/
theorem check_deriv_value (sq : K → K) (d : Nat) (f : List K → K) (g : List K → List K) (x : List K) {eps : K} (he : eps ≠ 0)
    (diffs : List K) (nev : Nat) (hx : x.length = d) (hg : (g x).length = d) (hd : diffs.length = d) :
    ∃ r out, checkDeriv sq d f g x eps diffs nev = .ok (r, out, nev + 1 + 2 * d) ∧ out.length = d ∧
      (∀ i, i < d → out.getD i 0 = central f x eps i - (g x).getD i 0) ∧
      ((∑ i ∈ Finset.range d, central f x eps i ^ 2 ≤ 1 →
          r = sq (∑ i ∈ Finset.range d, (central f x eps i - (g x).getD i 0) ^ 2)) ∧
        (1 < ∑ i ∈ Finset.range d, central f x eps i ^ 2 →
          r = sq ((∑ i ∈ Finset.range d, (central f x eps i - (g x).getD i 0) ^ 2) /
            ∑ i ∈ Finset.range d, central f x eps i ^ 2))) := by
  obtain ⟨out, h, hl, ho⟩ := check_ok sq d f g x he diffs nev hx hg hd
  exact ⟨_, out, h, hl, ho, fun hn => by rw [if_neg (not_lt.2 hn)], fun hn => by rw [if_pos hn]⟩

/-- **A correct gradient of a quadratic passes, for every step.** If along every coordinate the objective is a polynomial of degree at
most two with the given gradient as its linear coefficient, the check returns exactly `sqrt 0` and only zeros. -/
theorem check_deriv_quadratic [IsStrictOrderedRing K] (sq : K → K) (d : Nat) (f : List K → K) (g : List K → List K) (x : List K) {eps : K} (he : eps ≠ 0)
    (diffs : List K) (nev : Nat) (hx : x.length = d) (hg : (g x).length = d) (hd : diffs.length = d) (c : Nat → K)
    (hq : ∀ i, i < d → ∀ t, f (shift x i t) = f x + (g x).getD i 0 * t + c i * t ^ 2) :
    ∃ out, checkDeriv sq d f g x eps diffs nev = .ok (sq 0, out, nev + 1 + 2 * d) ∧ ∀ i, i < d → out.getD i 0 = 0 := by
  have hc : ∀ i, i < d → central f x eps i = (g x).getD i 0 := by
    intro i hi
    simp only [central, hq i hi]
    field_simp
    ring
  obtain ⟨out, h, hl, ho⟩ := check_ok sq d f g x he diffs nev hx hg hd
  have h0 : ∑ i ∈ Finset.range d, (central f x eps i - (g x).getD i 0) ^ 2 = 0 := by
    refine Finset.sum_eq_zero (fun i hi => ?_)
    rw [hc i (Finset.mem_range.1 hi)]
    simp
  rw [h0] at h
  refine ⟨out, ?_, fun i hi => by rw [ho i hi, hc i hi, sub_self]⟩
  rw [h]
  simp

/-- **A wrong gradient is seen.** If the check returns the square root of zero only for zero, a returned zero means that the gradient
agrees with the central difference in every coordinate. -/
theorem check_deriv_sound [IsStrictOrderedRing K] (sq : K → K) (hsq : ∀ y, 0 ≤ y → sq y = 0 → y = 0) (d : Nat) (f : List K → K)
    (g : List K → List K) (x : List K) {eps : K} (he : eps ≠ 0) (diffs : List K) (nev : Nat) (hx : x.length = d)
    (hg : (g x).length = d) (hd : diffs.length = d) {out : List K} {n : Nat}
    (h : checkDeriv sq d f g x eps diffs nev = .ok (0, out, n)) : ∀ i, i < d → central f x eps i = (g x).getD i 0 := by
  obtain ⟨out', h', _, _⟩ := check_ok sq d f g x he diffs nev hx hg hd
  rw [h'] at h
  simp only [Except.ok.injEq, Prod.mk.injEq] at h
  have hnn : 0 ≤ ∑ i ∈ Finset.range d, (central f x eps i - (g x).getD i 0) ^ 2 :=
    Finset.sum_nonneg (fun i _ => sq_nonneg _)
  have hz : ∑ i ∈ Finset.range d, (central f x eps i - (g x).getD i 0) ^ 2 = 0 := by
    have h1 := h.1
    by_cases hN : 1 < ∑ i ∈ Finset.range d, central f x eps i ^ 2
    · rw [if_pos hN] at h1
      have h2 := hsq _ (div_nonneg hnn (by linarith)) h1
      rcases div_eq_zero_iff.1 h2 with h3 | h3
      · exact h3
      · linarith
    · rw [if_neg hN] at h1
      exact hsq _ hnn h1
  intro i hi
  have := (Finset.sum_eq_zero_iff_of_nonneg (fun i _ => sq_nonneg _)).1 hz i (Finset.mem_range.2 hi)
  have := pow_eq_zero_iff (two_ne_zero) |>.1 this
  linarith

/-! ## Examples -/

/-- `f(x,y) = x^2 + 3 x y - y` -/
def exF (x : List ℚ) : ℚ := x.getD 0 0 ^ 2 + 3 * x.getD 0 0 * x.getD 1 0 - x.getD 1 0

/-- Its gradient. -/
def exG (x : List ℚ) : List ℚ := [2 * x.getD 0 0 + 3 * x.getD 1 0, 3 * x.getD 0 0 - 1]

/-- The right gradient passes with the step `1/10`. -/
example : ∃ out, checkDeriv id 2 exF exG [1, 2] (1 / 10) [9, 9] 0 = .ok (0, out, 5) ∧ ∀ i, i < 2 → out.getD i 0 = 0 := by
  refine check_deriv_quadratic id 2 exF exG [1, 2] (eps := 1 / 10) (by norm_num) [9, 9] 0 rfl rfl rfl
    (fun i => if i = 0 then 1 else 0) ?_
  intro i hi t
  interval_cases i <;> simp [exF, exG, shift] <;> ring

/-- A gradient with a sign error in the second coordinate: the array shows the error `2*(3x-1) = 4`. -/
example : ∃ r out, checkDeriv id 2 exF (fun x => [2 * x.getD 0 0 + 3 * x.getD 1 0, 1 - 3 * x.getD 0 0]) [1, 2] (1 / 10) [9, 9] 0 =
    .ok (r, out, 5) ∧ out.getD 1 0 = 4 := by
  obtain ⟨r, out, h, _, ho, _⟩ := check_deriv_value id 2 exF (fun x => [2 * x.getD 0 0 + 3 * x.getD 1 0, 1 - 3 * x.getD 0 0]) [1, 2]
    (eps := 1 / 10) (by norm_num) [9, 9] 0 rfl rfl rfl
  refine ⟨r, out, h, ?_⟩
  rw [ho 1 (by decide)]
  simp [central, shift, exF]
  norm_num

/-- **A small step is not needed for a wrong verdict**: for a cubic the correct gradient is reported as wrong with the error `eps^2`:
`f(x) = x^3` at 0 with the gradient 0 and the step 1/2 gives 1/4. -/
theorem check_deriv_cubic_counterexample :
    (checkDeriv id 1 (fun x => x.getD 0 0 ^ 3) (fun x => [3 * x.getD 0 0 ^ 2]) [0] (1 / 2 : ℚ) [0] 0) = .ok (1 / 16, [1 / 4], 3) := by
  obtain ⟨r, out, h, hl, ho, hr, _⟩ := check_deriv_value id 1 (fun x : List ℚ => x.getD 0 0 ^ 3) (fun x => [3 * x.getD 0 0 ^ 2]) [0]
    (eps := 1 / 2) (by norm_num) [0] 0 rfl rfl rfl
  have hc : central (fun x : List ℚ => x.getD 0 0 ^ 3) [0] (1 / 2) 0 = 1 / 4 := by
    simp [central, shift]; norm_num
  have h0 := ho 0 (by decide)
  rw [hc] at h0
  obtain ⟨a, rfl⟩ := List.length_eq_one_iff.1 hl
  have ha : a = 1 / 4 := by
    have : ([a] : List ℚ).getD 0 0 = a := rfl
    rw [this] at h0
    rw [h0]; norm_num
  have hr' := hr (by rw [Finset.sum_range_one, hc]; norm_num)
  rw [Finset.sum_range_one, hc] at hr'
  have : r = 1 / 16 := by
    rw [hr']
    norm_num
  rw [h, ha, this]

end C3.Cd

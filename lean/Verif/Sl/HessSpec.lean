/- First and second derivatives of a function train in the values of its univariate functions. -/
import Verif.Sl.Props

namespace C3.Sl
open Finset

variable {K : Type} [CommRing K]

/-- First derivative of the product of the first `k` cores when the values of the univariate functions move in direction `x`. -/
def d1 (r : Nat → Nat) (e x : Nat → K) : Nat → Nat → K
  | 0, _ => 0
  | k + 1, c => ∑ i ∈ range (r k), (d1 r e x k i * e (uo r k + (i + c * r k)) + lft r e k i * x (uo r k + (i + c * r k)))

/-- Mixed second derivative, in directions `x` and `y`. -/
def d2 (r : Nat → Nat) (e x y : Nat → K) : Nat → Nat → K
  | 0, _ => 0
  | k + 1, c => ∑ i ∈ range (r k), (d2 r e x y k i * e (uo r k + (i + c * r k)) + d1 r e x k i * y (uo r k + (i + c * r k)) + d1 r e y k i * x (uo r k + (i + c * r k)))

theorem d2_symm (r : Nat → Nat) (e x y : Nat → K) (k c : Nat) : d2 r e x y k c = d2 r e y x k c := by
  induction k generalizing c with
  | zero => rfl
  | succ k ih => simp only [d2]; exact sum_congr rfl fun i _ => by rw [ih]; ring

theorem d1_congr {r : Nat → Nat} (e : Nat → K) {x y : Nat → K} :
    ∀ k, (∀ u, u < uo r k → x u = y u) → ∀ c, c < r k → d1 r e x k c = d1 r e y k c := by
  intro k
  induction k with
  | zero => intros; rfl
  | succ k ih =>
    intro h c hc
    simp only [d1]
    refine sum_congr rfl fun i hi => ?_
    have hi' := mem_range.1 hi
    rw [ih (fun u hu => h u (by rw [uo_succ]; omega)) i hi', h _ (by rw [uo_succ]; have := idx_lt hi' hc; omega)]

theorem d2_congr {r : Nat → Nat} (e x : Nat → K) {y z : Nat → K} :
    ∀ k, (∀ u, u < uo r k → y u = z u) → ∀ c, c < r k → d2 r e x y k c = d2 r e x z k c := by
  intro k
  induction k with
  | zero => intros; rfl
  | succ k ih =>
    intro h c hc
    simp only [d2]
    refine sum_congr rfl fun i hi => ?_
    have hi' := mem_range.1 hi
    have h1 : ∀ u, u < uo r k → y u = z u := fun u hu => h u (by rw [uo_succ]; omega)
    rw [ih h1 i hi', d1_congr e k h1 i hi', h _ (by rw [uo_succ]; have := idx_lt hi' hc; omega)]

theorem d1_sum (r : Nat → Nat) (e : Nat → K) (n : Nat) (v : Nat → K) (y : Nat → Nat → K) (k c : Nat) :
    d1 r e (fun u => ∑ q ∈ range n, v q * y q u) k c = ∑ q ∈ range n, v q * d1 r e (y q) k c := by
  induction k generalizing c with
  | zero => simp [d1]
  | succ k ih =>
    simp only [d1, ih, mul_sum, sum_mul, ← sum_add_distrib]
    rw [sum_comm]
    exact sum_congr rfl fun q _ => sum_congr rfl fun i _ => by ring

theorem d2_sum (r : Nat → Nat) (e x : Nat → K) (n : Nat) (v : Nat → K) (y : Nat → Nat → K) (k c : Nat) :
    d2 r e x (fun u => ∑ q ∈ range n, v q * y q u) k c = ∑ q ∈ range n, v q * d2 r e x (y q) k c := by
  induction k generalizing c with
  | zero => simp [d2]
  | succ k ih =>
    simp only [d2, ih, d1_sum, mul_sum, sum_mul, ← sum_add_distrib]
    rw [sum_comm]
    exact sum_congr rfl fun q _ => sum_congr rfl fun i _ => by ring

theorem d1_zero {r : Nat → Nat} (e : Nat → K) {x : Nat → K} : ∀ k, (∀ u, u < uo r k → x u = 0) → ∀ c, c < r k → d1 r e x k c = 0 := by
  intro k h c hc
  rw [d1_congr e k (y := fun u => ∑ q ∈ range 0, (0 : K) * 0) (fun u hu => by rw [h u hu]; simp) c hc, d1_sum r e 0 (fun _ => 0) (fun _ _ => 0)]
  simp

theorem d2_zero {r : Nat → Nat} (e x : Nat → K) {y : Nat → K} : ∀ k, (∀ u, u < uo r k → y u = 0) → ∀ c, c < r k → d2 r e x y k c = 0 := by
  intro k h c hc
  rw [d2_congr e x k (z := fun u => ∑ q ∈ range 0, (0 : K) * 0) (fun u hu => by rw [h u hu]; simp) c hc, d2_sum r e x 0 (fun _ => 0) (fun _ _ => 0)]
  simp

/-- Changes within one core have no mixed second derivative. -/
theorem d2_same {r : Nat → Nat} (e : Nat → K) {x y : Nat → K} {a : Nat} (hx : ∀ u, (u < uo r a ∨ uo r (a + 1) ≤ u) → x u = 0) (hy : ∀ u, (u < uo r a ∨ uo r (a + 1) ≤ u) → y u = 0) :
    ∀ k c, c < r k → d2 r e x y k c = 0 := by
  intro k
  induction k with
  | zero => intros; rfl
  | succ k ih =>
    intro c hc
    simp only [d2]
    refine sum_eq_zero fun i hi => ?_
    have hi' := mem_range.1 hi
    rw [ih i hi']
    rcases Nat.lt_trichotomy k a with h | h | h
    · have hu : uo r k + (i + c * r k) < uo r a := by
        have := uo_mono r (show k + 1 ≤ a from h)
        rw [uo_succ] at this
        have := idx_lt hi' hc
        omega
      rw [hx _ (Or.inl hu), hy _ (Or.inl hu)]; ring
    · subst h
      rw [d1_zero e k (fun u hu => hx u (Or.inl hu)) i hi', d1_zero e k (fun u hu => hy u (Or.inl hu)) i hi']; ring
    · have hu : uo r (a + 1) ≤ uo r k + (i + c * r k) := by
        have := uo_mono r (show a + 1 ≤ k from h)
        omega
      rw [hx _ (Or.inr hu), hy _ (Or.inr hu)]; ring

theorem hasDerivAt_lft {r : Nat → Nat} {E : ℝ → Nat → ℝ} {x : Nat → ℝ} {t0 : ℝ} (h : ∀ u, HasDerivAt (fun t => E t u) (x u) t0) (k c : Nat) :
    HasDerivAt (fun t => lft r (E t) k c) (d1 r (E t0) x k c) t0 := by
  induction k generalizing c with
  | zero => exact hasDerivAt_const t0 _
  | succ k ih => exact HasDerivAt.fun_sum fun i _ => (ih i).mul (h _)

theorem hasDerivAt_d1 {r : Nat → Nat} {E : ℝ → Nat → ℝ} {x y : Nat → ℝ} {t0 : ℝ} (h : ∀ u, HasDerivAt (fun t => E t u) (y u) t0) (k c : Nat) :
    HasDerivAt (fun t => d1 r (E t) x k c) (d2 r (E t0) x y k c) t0 := by
  induction k generalizing c with
  | zero => exact hasDerivAt_const t0 _
  | succ k ih =>
    refine HasDerivAt.fun_sum fun i _ => ?_
    have := ((ih i).mul (h (uo r k + (i + c * r k)))).add ((hasDerivAt_lft (r := r) h k i).mul_const (x (uo r k + (i + c * r k))))
    exact this.congr_deriv (by ring)

end C3.Sl

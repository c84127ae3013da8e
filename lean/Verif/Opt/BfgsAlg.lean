/-
Specification of the BFGS update and its algebra: secant equation, symmetry, positive definiteness. Nothing here refers to the model of
the code.
-/
import Verif.Opt.Spec
import Mathlib.Algebra.BigOperators.Ring.Finset
import Mathlib.Tactic.Positivity
import Mathlib.Tactic.Linarith
import Mathlib.Tactic.Ring
import Mathlib.Tactic.FieldSimp

namespace C3.Opt
open Finset

variable {K : Type} [Field K]

/-- Inner product of vectors given as functions. -/
def ip (d : Nat) (u v : Nat → K) : K := ∑ i ∈ range d, u i * v i

/-- Matrix times vector. -/
def mulv (d : Nat) (A : Nat → Nat → K) (v : Nat → K) (i : Nat) : K := ∑ j ∈ range d, A i j * v j

/-- The BFGS update of the inverse Hessian `A` with the step `s` and the change of gradient `y` (Nocedal and Wright, 6.17, multiplied out). -/
def bfgs (d : Nat) (A : Nat → Nat → K) (s y : Nat → K) (i j : Nat) : K :=
  A i j + (ip d s y + ip d y (mulv d A y)) / ip d s y ^ 2 * (s i * s j) - 1 / ip d s y * (mulv d A y i * s j + s i * mulv d A y j)

/-- Symmetric on the first `d` indices. -/
def SymM (d : Nat) (A : Nat → Nat → K) : Prop := ∀ i < d, ∀ j < d, A i j = A j i

/-- Positive definite. -/
def PosDef [LinearOrder K] (d : Nat) (A : Nat → Nat → K) : Prop :=
  ∀ v : Nat → K, (∃ i < d, v i ≠ 0) → 0 < ip d v (mulv d A v)

theorem ip_comm (d : Nat) (u v : Nat → K) : ip d u v = ip d v u := sum_congr rfl fun _ _ => mul_comm _ _

theorem ip_add (d : Nat) (u v w : Nat → K) : ip d u (fun i => v i + w i) = ip d u v + ip d u w := by
  rw [ip, ip, ip, ← sum_add_distrib]
  exact sum_congr rfl fun _ _ => by ring

theorem ip_sub (d : Nat) (u v w : Nat → K) : ip d u (fun i => v i - w i) = ip d u v - ip d u w := by
  rw [ip, ip, ip, ← sum_sub_distrib]
  exact sum_congr rfl fun _ _ => by ring

theorem ip_smul (d : Nat) (c : K) (u v : Nat → K) : ip d u (fun i => c * v i) = c * ip d u v := by
  rw [ip, ip, mul_sum]
  exact sum_congr rfl fun _ _ => by ring

theorem ip_congr {d : Nat} {u u' v v' : Nat → K} (hu : ∀ i < d, u i = u' i) (hv : ∀ i < d, v i = v' i) : ip d u v = ip d u' v' :=
  sum_congr rfl fun i hi => by rw [hu i (mem_range.mp hi), hv i (mem_range.mp hi)]

theorem mulv_congr {d : Nat} {A B : Nat → Nat → K} {u v : Nat → K} {i : Nat} (hA : ∀ j < d, A i j = B i j) (hv : ∀ j < d, u j = v j) :
    mulv d A u i = mulv d B v i :=
  sum_congr rfl fun j hj => by rw [hA j (mem_range.mp hj), hv j (mem_range.mp hj)]

theorem mulv_sub_smul (d : Nat) (A : Nat → Nat → K) (u v : Nat → K) (c : K) (i : Nat) :
    mulv d A (fun j => u j - c * v j) i = mulv d A u i - c * mulv d A v i := by
  rw [mulv, mulv, mulv, mul_sum, ← sum_sub_distrib]
  exact sum_congr rfl fun _ _ => by ring

theorem ip_mulv_comm {d : Nat} {A : Nat → Nat → K} (h : SymM d A) (u v : Nat → K) : ip d u (mulv d A v) = ip d v (mulv d A u) := by
  simp only [ip, mulv, mul_sum]
  rw [sum_comm]
  refine sum_congr rfl fun i hi => sum_congr rfl fun j hj => ?_
  rw [h j (mem_range.mp hj) i (mem_range.mp hi)]; ring

theorem bfgs_symm {d : Nat} {A : Nat → Nat → K} (h : SymM d A) (s y : Nat → K) : SymM d (bfgs d A s y) := by
  intro i hi j hj
  rw [bfgs, bfgs, h i hi j hj]; ring

theorem mulv_bfgs (d : Nat) (A : Nat → Nat → K) (s y v : Nat → K) (i : Nat) :
    mulv d (bfgs d A s y) v i = mulv d A v i + (ip d s y + ip d y (mulv d A y)) / ip d s y ^ 2 * (s i * ip d s v) -
      1 / ip d s y * (mulv d A y i * ip d s v + s i * ip d (mulv d A y) v) := by
  have e : ∀ j, bfgs d A s y i j * v j = A i j * v j + (ip d s y + ip d y (mulv d A y)) / ip d s y ^ 2 * s i * (s j * v j) -
      (1 / ip d s y * mulv d A y i * (s j * v j) + 1 / ip d s y * s i * (mulv d A y j * v j)) := by
    intro j; rw [bfgs]; ring
  conv_lhs => rw [mulv]
  simp only [e]
  rw [sum_sub_distrib, sum_add_distrib, sum_add_distrib, ← mul_sum, ← mul_sum, ← mul_sum]
  change mulv d A v i + _ * ip d s v - (_ * ip d s v + _ * ip d (mulv d A y) v) = _
  ring

/-- The secant equation: the updated matrix maps the change of gradient to the step. -/
theorem bfgs_secant {d : Nat} (A : Nat → Nat → K) {s y : Nat → K} (h : ip d s y ≠ 0) (i : Nat) : mulv d (bfgs d A s y) y i = s i := by
  rw [mulv_bfgs, ip_comm d (mulv d A y) y]
  field_simp
  ring

theorem quad_sub {d : Nat} {A : Nat → Nat → K} (hA : SymM d A) (v y : Nat → K) (c : K) :
    ip d (fun i => v i - c * y i) (mulv d A fun i => v i - c * y i) =
      ip d v (mulv d A v) - 2 * c * ip d v (mulv d A y) + c ^ 2 * ip d y (mulv d A y) := by
  rw [show (mulv d A fun i => v i - c * y i) = fun i => mulv d A v i - c * mulv d A y i from funext fun i => mulv_sub_smul _ _ _ _ _ _]
  rw [ip_sub, ip_smul, ip_comm d _ (mulv d A v), ip_comm d _ (mulv d A y), ip_sub, ip_sub, ip_smul, ip_smul, ip_comm d (mulv d A v) v,
    ip_comm d (mulv d A v) y, ip_comm d (mulv d A y) v, ip_comm d (mulv d A y) y, ip_mulv_comm hA y v]
  ring

theorem bfgs_quad {d : Nat} {A : Nat → Nat → K} (hA : SymM d A) {s y : Nat → K} (h : ip d s y ≠ 0) (v : Nat → K) :
    ip d v (mulv d (bfgs d A s y) v) =
      ip d (fun i => v i - ip d s v / ip d s y * y i) (mulv d A fun i => v i - ip d s v / ip d s y * y i) + ip d s v ^ 2 / ip d s y := by
  have e1 : ip d v (mulv d (bfgs d A s y) v) = ip d v (mulv d A v) +
      (ip d s y + ip d y (mulv d A y)) / ip d s y ^ 2 * ip d s v * ip d s v - 2 * (1 / ip d s y * ip d s v * ip d v (mulv d A y)) := by
    rw [show mulv d (bfgs d A s y) v = fun i => mulv d A v i + ((ip d s y + ip d y (mulv d A y)) / ip d s y ^ 2 * ip d s v) * s i -
      ((1 / ip d s y * ip d s v) * mulv d A y i + (1 / ip d s y * ip d (mulv d A y) v) * s i) from funext fun i => by rw [mulv_bfgs]; ring]
    rw [ip_sub, ip_add, ip_add, ip_smul, ip_smul, ip_smul, ip_comm d v s, ip_comm d (mulv d A y) v]
    ring
  have e2 : ip d (fun i => v i - ip d s v / ip d s y * y i) (mulv d A fun i => v i - ip d s v / ip d s y * y i) =
      ip d v (mulv d A v) - 2 * (ip d s v / ip d s y) * ip d v (mulv d A y) + (ip d s v / ip d s y) ^ 2 * ip d y (mulv d A y) := by
    exact quad_sub hA _ _ _
  rw [e1, e2]
  field_simp
  ring

/-- Positive definiteness is kept when the step and the change of gradient make an acute angle. -/
theorem bfgs_posDef [LinearOrder K] [IsStrictOrderedRing K] {d : Nat} {A : Nat → Nat → K} (hA : SymM d A) (hp : PosDef d A)
    {s y : Nat → K} (h : 0 < ip d s y) : PosDef d (bfgs d A s y) := by
  intro v hv
  rw [bfgs_quad hA h.ne']
  by_cases hs : ip d s v = 0
  · simp only [hs, zero_div, zero_mul, sub_zero]
    simpa using hp v hv
  · have h1 : 0 < ip d s v ^ 2 / ip d s y := div_pos (by positivity) h
    have h2 : 0 ≤ ip d (fun i => v i - ip d s v / ip d s y * y i) (mulv d A fun i => v i - ip d s v / ip d s y * y i) := by
      by_cases hw : ∃ i < d, v i - ip d s v / ip d s y * y i ≠ 0
      · exact (hp _ hw).le
      · push Not at hw
        rw [ip, sum_eq_zero]
        intro i hi
        rw [hw i (mem_range.mp hi), zero_mul]
    linarith

/-- It is lost when the angle is obtuse (and the update is done all the same): the curvature along the change of gradient becomes negative. -/
theorem bfgs_not_posDef [LinearOrder K] [IsStrictOrderedRing K] {d : Nat} (A : Nat → Nat → K) {s y : Nat → K} (h : ip d s y < 0) :
    ¬ PosDef d (bfgs d A s y) := by
  intro hp
  have hy : ∃ i < d, y i ≠ 0 := by
    by_contra hc
    push Not at hc
    have : ip d s y = 0 := sum_eq_zero fun i hi => by rw [hc i (mem_range.mp hi), mul_zero]
    linarith
  have := hp y hy
  rw [show mulv d (bfgs d A s y) y = s from funext fun i => bfgs_secant A h.ne i, ip_comm] at this
  linarith

end C3.Opt

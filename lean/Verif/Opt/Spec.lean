/-
Specification of the optimizers: boxes, projected steps, inner products, sufficient decrease. Nothing here refers to the model of the code.
-/
import Mathlib.Algebra.BigOperators.Intervals
import Mathlib.Algebra.Order.Field.Basic
import Mathlib.Data.List.Basic

namespace C3.Opt
open Finset

variable {K : Type} [Field K] [LinearOrder K]

/-- Inner product of the first `d` coordinates. -/
def dot (d : Nat) (x y : List K) : K := ∑ i ∈ range d, x.getD i 0 * y.getD i 0

/-- Squared Euclidean distance. -/
def dist2 (d : Nat) (x y : List K) : K := ∑ i ∈ range d, (x.getD i 0 - y.getD i 0) ^ 2

/-- `x` satisfies the bounds. -/
def InBox (d : Nat) (lb ub x : List K) : Prop := ∀ i < d, lb.getD i 0 ≤ x.getD i 0 ∧ x.getD i 0 ≤ ub.getD i 0

/-- `x` lies strictly inside the bounds. -/
def Inside (d : Nat) (lb ub x : List K) : Prop := ∀ i < d, lb.getD i 0 < x.getD i 0 ∧ x.getD i 0 < ub.getD i 0

/-- The point of the box nearest to `x + t*dir` (coordinate by coordinate). -/
def projStep (d : Nat) (lb ub x dir : List K) (t : K) : List K :=
  (List.range d).map fun i => max (lb.getD i 0) (min (x.getD i 0 + t * dir.getD i 0) (ub.getD i 0))

end C3.Opt

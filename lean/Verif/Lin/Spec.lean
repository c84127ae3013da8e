/- Specification objects for linear elements: the piecewise linear interpolant, and well-formed expansions. -/
import Verif.Lin.Model

namespace C3.Lin
variable {K : Type} [Field K] [LinearOrder K]

/-- The continuous piecewise linear function through the points `(xs i, ys i)`, zero to the left of the first and to the right
of the last point. -/
def pl : List K → List K → K → K
  | a :: b :: xs, u :: w :: ys, x =>
    if x ≤ b then (if x < a then 0 else u + (w - u) / (b - a) * (x - a)) else pl (b :: xs) (w :: ys) x
  | _, _, _ => 0

/-- Node and coefficient by number. -/
def LE.nd (f : LE K) (i : Nat) : K := f.nodes.getD i 0
def LE.cf (f : LE K) (i : Nat) : K := f.coeff.getD i 0

/-- At least two, strictly increasing nodes, with one coefficient each. -/
structure LE.WF (f : LE K) : Prop where
  hn : f.nodes.length = f.num
  hc : f.coeff.length = f.num
  two : 2 ≤ f.num
  inc : ∀ i, i + 1 < f.num → f.nd i < f.nd (i + 1)

end C3.Lin

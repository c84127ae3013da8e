/- Specification of orthogonal polynomial expansions: the series in the polynomials of the three-term recurrence. -/
import Verif.Poly.Model
import Mathlib.Algebra.BigOperators.Ring.Finset
import Mathlib.Algebra.BigOperators.Intervals

namespace C3.Poly
open Finset
variable {K : Type} [Field K] [LinearOrder K]

/-- The polynomials of a family: a constant, an affine function, and the three-term recurrence
`p_n = (a_n x + b_n) p_{n-1} + c_n p_{n-2}`. -/
def Fam.p (fam : Fam K) : Nat → K → K
  | 0, _ => fam.c0
  | 1, x => fam.l0 + fam.l1 * x
  | n + 2, x => (fam.an (n + 2) * x + fam.bn (n + 2)) * fam.p (n + 1) x + fam.cn (n + 2) * fam.p n x

/-- Coefficient of order `k` of the function represented, zero beyond the number of polynomials. -/
def Ope.cf (f : Ope K) (k : Nat) : K := if k < f.num then f.coeff.getD k 0 else 0

/-- The function represented by an expansion: the series at the point mapped to the reference domain. -/
def Ope.val (f : Ope K) (x : K) : K := ∑ k ∈ range f.num, f.coeff.getD k 0 * f.fam.p k (f.map.slope * x + f.map.off)

/-- Mean square of the basis functions at a point, whose square root is the Kristoffel weight. -/
def Ope.meanSq (f : Ope K) (x : K) : K := (∑ k ∈ range f.num, f.fam.p k (f.map.slope * x + f.map.off) ^ 2) / f.num

/-- Expansions as the library builds them: at least one polynomial, room for all coefficients, and the type tag CHEBYSHEV only
with the Chebyshev recurrence. -/
structure Ope.WF (f : Ope K) : Prop where
  pos : 1 ≤ f.num
  num_le : f.num ≤ f.nalloc
  alloc_le : f.nalloc ≤ f.coeff.length
  cheb : f.fam.pt = .cheb → ∃ pi, f.fam = chebFam pi

end C3.Poly

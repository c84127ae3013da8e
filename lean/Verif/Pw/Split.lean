/-
Constructors of piecewise polynomials, splitting of pieces and detection of discontinuities (c3/lib_funcs/piecewisepoly.c). `piecewise_poly_alloc` makes
a leaf; `ope_opts_alloc` sets mean 0, standard deviation 1 and no Kristoffel weight.
-/
import Verif.Pw.Approx
import Verif.Poly.Make

namespace C3.Pw
open C3.Poly (Ope Opts Fam PT Rule)
variable {K : Type} [Field K] [LinearOrder K]

/-- polynomials.c:844-886 `ope_opts_alloc` with the bounds set afterwards, as in piecewisepoly.c:520-524, 545-548, 586-589; `tol` is `1e-10`. -/
def pwOpe (fam : Fam K) (tol lb ub : K) : Opts K := ⟨fam, 5, 100, 2, tol, lb, ub, 0, 1, false, false, false⟩

/-- piecewisepoly.c:511-529 `piecewise_poly_genorder`. -/
def pwGenorder (sq : K → K) (order : Nat) (fam : Fam K) (tol lb ub : K) : C (Pw K) := do
  let f ← C3.Poly.genorder sq order (pwOpe fam tol lb ub)
  pure (.leaf f)

/-- piecewisepoly.c:539-553 `piecewise_poly_constant`. -/
def pwConstant (thr lim a : K) (fam : Fam K) (tol lb ub : K) : C (Pw K) := do
  let f ← C3.Poly.constant thr lim a (pwOpe fam tol lb ub)
  pure (.leaf f)

/-- piecewisepoly.c:583-594 `piecewise_poly_linear`. -/
def pwLinear (a offset : K) (fam : Fam K) (tol lb ub : K) : C (Pw K) := do
  let f ← C3.Poly.linear a offset (pwOpe fam tol lb ub)
  pure (.leaf f)

/-- piecewisepoly.c:159-164 `pw_eval_quad_func` with the coefficients of piecewisepoly.c:650. -/
def pwQuadFunc (a offset x : K) : C K := .ok (a * x ^ 2 + -2 * a * offset * x + a * offset * offset)

/-- piecewisepoly.c:647-657 `piecewise_poly_quadratic`. -/
def pwQuadratic (thr : K) (Q : PT → Nat → Rule K) (a offset : K) (fam : Fam K) (lb ub : K) : C (Pw K) := do
  let p ← C3.Poly.init fam 3 lb ub
  let p ← C3.Poly.approx Q (pwQuadFunc a offset) p
  let p ← C3.Poly.round thr p
  pure (.leaf p)

/-- piecewisepoly.c:687-689, 694-696, 730-732: the part of an expansion on an interval. -/
def cellFrom (thr : K) (sq : K → K) (Q : PT → Nat → Rule K) (f : Ope K) (lb ub : K) : C (Ope K) := do
  let p ← C3.Poly.init f.fam f.num lb ub
  let p ← C3.Poly.approx Q (C3.Poly.eval sq f) p
  C3.Poly.round thr p

/-- piecewisepoly.c:667-700 `orth_poly_expansion_split`. -/
def Pw.split (thr : K) (sq : K → K) (Q : PT → Nat → Rule K) (loc : K) : Pw K → C (Pw K)
  | .node _ => .error .assertFail
  | .leaf f => do
    cassert (decide (loc > f.lb))
    cassert (decide (loc < f.ub))
    let a ← cellFrom thr sq Q f f.lb loc
    let b ← cellFrom thr sq Q f loc f.ub
    pure (.node [.leaf a, .leaf b])

/-- piecewisepoly.c:709-737 `piecewise_poly_splitn`; with `N = 0` the array is read at index -1. -/
def Pw.splitn (thr : K) (sq : K → K) (Q : PT → Nat → Rule K) (N : Nat) (bounds : List K) : Pw K → C (Pw K)
  | .node _ => .error .assertFail
  | .leaf f => do
    let b0 ← rd bounds 0
    cassert (decide (|b0 - f.lb| = 0))
    let b1 ← (if N = 0 then .error .oob else rd bounds (N - 1))
    cassert (decide (|b1 - f.ub| = 0))
    let bs ← forN (N - 1) (fun ii bs => do
      let l ← rd bounds ii
      let u ← rd bounds (ii + 1)
      let g ← cellFrom thr sq Q f l u
      pure (bs ++ [Pw.leaf g])) []
    pure (.node bs)

/-- piecewisepoly.c:1949-1983 `piecewise_poly_check_discontinuity`; `tol` is the margin `1e-14` of the evaluation, `eps` is `DBL_EPSILON*100`, `jump` the
tolerance of the caller. Depth of the recursion bounded by `fuel`: a negative `numcheck` other than -1 never reaches -1. -/
def checkDisc (thr tol dflt eps jump : K) (sq : K → K) (other : Ope K → Ope K → C (Ope K)) : Nat → Pw K → Pw K → Int → C Nat
  | 0, _, _, numcheck => if numcheck = -1 then .ok 0 else .error .diverge
  | fuel + 1, left, right, numcheck =>
    if numcheck = -1 then .ok 0
    else do
      let ubl ← left.ub
      let lbr ← right.lb
      cassert (decide (|ubl - lbr| < eps))
      let val1 ← left.eval tol dflt sq ubl
      let val2 ← right.eval tol dflt sq lbr
      if (if |val1| ≥ 1 then |val1 - val2| / |val1| else |val1 - val2|) < jump then do
        let dl ← left.deriv thr sq other
        let dr ← right.deriv thr sq other
        checkDisc thr tol dflt eps jump sq other fuel dl dr (numcheck - 1)
      else pure 1

end C3.Pw

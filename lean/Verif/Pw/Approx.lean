/-
Adaptive piecewise polynomial approximation (c3/lib_funcs/piecewisepoly.c:2371-2572).
-/
import Verif.Pw.Model

namespace C3.Pw
open C3.Poly (Ope Fam PT Rule)
open C3.Lin (dv)
variable {K : Type} [Field K] [LinearOrder K]

/-- piecewisepoly.c:166-185 `struct PwPolyOpts`, the fields used by the approximation; `pts = none` is the null pointer and otherwise
`npts` is the length of the list. `opeopts` is NULL (piecewisepoly.c:210) and has no setter, so the branches of
`piecewise_poly_approx1` for other values are left out. `fam` stands for `ptype`. -/
structure PwOpts (K : Type) where
  fam : Fam K
  lb : K
  ub : K
  maxorder : Nat
  minsize : K
  check : Nat
  eps : K
  nregions : Nat
  pts : Option (List K)

/-- c3/lib_array/array.c:271-281 `linspace` over `K`, for at least two points exact; with one point the quotient by zero is never used. -/
def linspaceK (min max : K) (N : Nat) : C (List K) := do
  let a ← forN (N - 1) (fun ii a => wr a ii (((ii : Nat) : K) * ((max - min) / ((N - 1 : Nat) : K)) + min)) (List.replicate N (0 : K))
  wr a (N - 1) max

/-- The three calls that make a leaf (piecewisepoly.c:2382-2384, 2419-2421 and 2431, 2536-2538): an expansion with `maxorder + 1`
polynomials, its projection and the rounding. The return code of the projection is ignored. -/
def leafApprox (thr : K) (Q : PT → Nat → Rule K) (cc : Nat → Rule K) (F : List K → C (Option (List K))) (fam : Fam K) (maxorder : Nat)
    (lb ub : K) : C (Ope K) := do
  let f ← C3.Poly.init fam (maxorder + 1) lb ub
  let f ← C3.Poly.approxKeep Q cc F f none
  C3.Poly.round thr f

/-- piecewisepoly.c:2404-2433: the loop over the cells of a list of points. -/
def cells (A : K → K → C (Ope K)) (pts : List K) (n : Nat) : C (List (Pw K)) :=
  forN n (fun ii bs => do
    let clb ← rd pts ii
    let cub ← rd pts (ii + 1)
    let f ← A clb cub
    pure (bs ++ [Pw.leaf f])) []

/-- piecewisepoly.c:2371-2444 `piecewise_poly_approx1`; `A lb ub` makes the leaf of a cell. A list of points of length zero asks for
`2^64 - 1` branches. -/
def approx1 (A : K → K → C (Ope K)) (nregions : Nat) (pts : Option (List K)) (lb ub : K) : C (Pw K) :=
  if nregions = 1 then do
    let f ← A lb ub
    pure (.leaf f)
  else
    match pts with
    | none => do
      let p ← linspaceK lb ub (nregions + 1)
      let bs ← cells A p nregions
      pure (.node bs)
    | some p =>
      if p.length = 0 then .error .ub
      else do
        let bs ← cells A p (p.length - 1)
        pure (.node bs)

/-- piecewisepoly.c:2475-2486, 2547-2558: is the square of one of the last coefficients of `N` above the tolerance. -/
def mustRefine (check N : Nat) (tol : K) (f : Ope K) : C Bool :=
  forN (if check < N then check else N) (fun jj b => if b then pure true
    else do
      let c ← rd f.coeff (N - 1 - jj)
      pure (decide (c * c > tol))) false

/-- piecewisepoly.c:2465-2500: one branch; the second component tells whether it was refined. -/
def adaptBranch (A : K → K → C (Ope K)) (o : PwOpts K) : Pw K → C (Pw K × Bool)
  | .node _ => .error .assertFail
  | .leaf f =>
    if f.ub - f.lb < o.minsize ∨ o.nregions = 1 then pure (.leaf f, false)
    else do
      let r ← mustRefine o.check (o.maxorder + 1) (o.eps * 1) f
      if r then do
        let p ← approx1 A o.nregions o.pts f.lb f.ub
        pure (p, true)
      else pure (.leaf f, false)

/-- piecewisepoly.c:2462-2501: the loop over the branches. -/
def adaptBranches (A : K → K → C (Ope K)) (o : PwOpts K) : List (Pw K) → C (List (Pw K) × Bool)
  | [] => .ok ([], false)
  | b :: bs => do
    let s ← adaptBranch A o b
    let r ← adaptBranches A o bs
    pure (s.1 :: r.1, s.2 || r.2)

/-- piecewisepoly.c:2447-2512 `adapt_help`; `fuel` bounds the depth of the recursion. The bounds stored in the options are changed for
the calls of `piecewise_poly_approx1` and set to those of the tree afterwards. -/
def adaptHelp (A : K → K → C (Ope K)) (o : PwOpts K) : Nat → Pw K → C (Pw K)
  | 0, _ => .error .diverge
  | _ + 1, .leaf _ => .error .assertFail
  | fuel + 1, .node bs => do
    let _ ← (Pw.node bs).lb
    let _ ← (Pw.node bs).ub
    let s ← adaptBranches A o bs
    let p ← (Pw.node s.1).flatten
    if s.2 then adaptHelp A o fuel p else pure p

/-- piecewisepoly.c:2523-2572 `piecewise_poly_approx1_adapt`. -/
def approxAdapt (A : K → K → C (Ope K)) (o : PwOpts K) (fuel : Nat) : C (Pw K) := do
  cassert o.pts.isNone
  let f ← A o.lb o.ub
  if o.ub - o.lb < o.minsize ∨ o.nregions = 1 then pure (.leaf f)
  else do
    let n ← forN (o.maxorder + 1) (fun i s => do
      let c ← rd f.coeff i
      pure (s + c * c)) 0
    let r ← mustRefine o.check (o.maxorder + 1) (o.eps * n) f
    if r then do
      let p ← approx1 A o.nregions o.pts o.lb o.ub
      adaptHelp A o fuel p
    else pure (.leaf f)

end C3.Pw

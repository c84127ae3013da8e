/-
Projection of functions on orthogonal polynomials by quadrature (c3/lib_funcs/polynomials.c).

`Q` stands for the quadrature routines: `Q pt n` are the points and weights for `n` nodes (`cheb_gauss`, `gauss_legendre` /
`getLegPtsWts2`, `gauss_hermite`); `cc n` those of `clenshaw_curtis`.
-/
import Verif.Poly.Alg

namespace C3.Poly
open C3.Lin (dv)
variable {K : Type} [Field K] [LinearOrder K]

/-- A quadrature rule: points and weights. -/
structure Rule (K : Type) where
  pts : List K
  wts : List K
  deriving DecidableEq

/-- polynomials.c:3771-3777: one order of one point; state `p[0]`, `p[1]`, coefficients. -/
def consStep (fam : Fam K) (fv nd : K) (jj : Nat) (s : K × K × List K) : C (K × K × List K) := do
  let c ← rd s.2.2 jj
  let co ← wr s.2.2 jj (c + fv * wp fam s.1 s.2.1 jj nd)
  pure (s.2.1, wp fam s.1 s.2.1 jj nd, co)

/-- polynomials.c:3763-3778: the contribution of one point, at least two polynomials. -/
def consRow (fam : Fam K) (num : Nat) (fv nd : K) (coeff : List K) : C (List K) := do
  let c0 ← rd coeff 0
  let co ← wr coeff 0 (c0 + fv * fam.c0)
  let c1 ← rd co 1
  let co ← wr co 1 (c1 + fv * (fam.l0 + fam.l1 * nd))
  let s ← forR 2 num (consStep fam fv nd) (fam.c0, fam.l0 + fam.l1 * nd, co)
  pure s.2.2

/-- polynomials.c:3763-3799 `orth_poly_expansion_construct`; the same loops end `orth_poly_expansion_approx` (3716-3744). -/
def construct (f : Ope K) (n : Nat) (fvals nodes : List K) : C (Ope K) :=
  if f.num > 1 then do
    let co ← forN n (fun ii co => do
      let fv ← rd fvals ii
      let nd ← rd nodes ii
      consRow f.fam f.num fv nd co) f.coeff
    let co ← forN f.num (fun ii co => do
      let c ← rd co ii
      let q ← dv c (f.fam.norm ii)
      wr co ii q) co
    pure { f with coeff := co }
  else do
    let co ← forN n (fun ii co => do
      let fv ← rd fvals ii
      let c ← rd co 0
      wr co 0 (c + fv * f.fam.c0)) f.coeff
    let c ← rd co 0
    let q ← dv c (f.fam.norm 0)
    let co ← wr co 0 q
    pure { f with coeff := co }

/-- polynomials.c:3666-3703: points and weights. For Chebyshev the rule with `num_poly` nodes fills blocks of `num_poly + 1` zeros. -/
def approxRule (Q : PT → Nat → Rule K) (f : Ope K) : Rule K :=
  match f.fam.pt with
  | .cheb => ⟨(Q .cheb f.num).pts ++ [0], (Q .cheb f.num).wts ++ [0]⟩
  | pt => Q pt (f.num + 1)

/-- polynomials.c:3648-3750 `orth_poly_expansion_approx`. -/
def approx (Q : PT → Nat → Rule K) (A : K → C K) (f : Ope K) : C (Ope K) := do
  let r := approxRule Q f
  let fv ← forN (f.num + 1) (fun ii fv => do
    let p ← rd r.pts ii
    let v ← A (f.map.inv p)
    let w ← rd r.wts ii
    wr fv ii (v * w)) (List.replicate (f.num + 1) 0)
  construct f (f.num + 1) fv r.pts

/-- polynomials.c:3817-3878: number of points and the rule, `none` for a nonzero return code. `o` tells the quadrature type of the
options (`none`: null pointer). lib_quadrature/legquadrules2.c:650-658 `getLegPtsWts2` accepts up to 200 points, but its tables (643-648) have
199 entries. -/
def vecRule (Q : PT → Nat → Rule K) (cc : Nat → Rule K) (f : Ope K) (o : Option Bool) : C (Option (Nat × Rule K)) :=
  let useCC := o = some true
  if useCC ∧ f.num = 0 then .ok none
  else
    let nquad := if useCC then 2 * f.num - 1 else f.num + 1
    if nquad < 1 ∨ nquad > 200 then .ok none
    else match f.fam.pt with
    | .leg =>
      if useCC then .ok (some (nquad, ⟨(cc nquad).pts, (cc nquad).wts.map (· * (1 / 2))⟩))
      else if nquad ≤ 199 then .ok (some (nquad, Q .leg nquad)) else .error .oob
    | pt => if useCC then .error .assertFail else .ok (some (nquad, Q pt nquad))

/-- polynomials.c:3810-3912 `orth_poly_expansion_approx_vec`: `F` evaluates the wrapped function at a list of points; `none` is a
nonzero return code, in which case the expansion is unchanged. -/
def approxVec (Q : PT → Nat → Rule K) (cc : Nat → Rule K) (F : List K → C (Option (List K))) (f : Ope K)
    (o : Option Bool) : C (Option (Ope K)) := do
  let r ← vecRule Q cc f o
  match r with
  | none => pure none
  | some (n, r) => do
    let pu ← forN n (fun ii pu => do
      let p ← rd r.pts ii
      wr pu ii (f.map.inv p)) (List.replicate n 0)
    let v ← F pu
    match v with
    | none => pure none
    | some v => do
      let fv ← forN n (fun ii fv => do
        let u ← rd fv ii
        let w ← rd r.wts ii
        wr fv ii (u * w)) v
      let g ← construct f n fv r.pts
      pure (some g)

/-- The return code of `orth_poly_expansion_approx_vec` is ignored by its caller (polynomials.c:3945, 3980). -/
def approxKeep (Q : PT → Nat → Rule K) (cc : Nat → Rule K) (F : List K → C (Option (List K))) (f : Ope K)
    (o : Option Bool) : C (Ope K) := do
  let r ← approxVec Q cc F f o
  pure (r.getD f)

/-- polynomials.c:3947-3953, 3986-3994: is one of the last coefficients above the tolerance; an index below zero wraps. -/
def tooBig (coeff : List K) (N : Nat) (check : Nat) (tol : K) : C Bool :=
  forN check (fun ii b => if b then pure true
    else if N < ii + 1 then .error .oob
    else do
      let c ← rd coeff (N - 1 - ii)
      pure (decide (|c| > tol))) false

/-- polynomials.c:3981-3985. -/
def sumSq (thr : K) (coeff : List K) (N : Nat) : C K := do
  let s ← forN N (fun ii s => do
    let c ← rd coeff ii
    pure (s + c ^ 2)) 0
  pure (max s thr)

/-- polynomials.c:3970-3980: a new block of coefficients. -/
def regrow (f : Ope K) (N : Nat) : Ope K := { f with num := N, nalloc := N + 50, coeff := List.replicate (N + 50) 0 }

/-- polynomials.c:3961-4017: the loop; `fuel` bounds the number of iterations. -/
def adaptLoop (thr : K) (Q : PT → Nat → Rule K) (cc : Nat → Rule K) (F : List K → C (Option (List K))) (o : Opts K) :
    Nat → Bool → Ope K → C (Ope K)
  | 0, _, _ => .error .diverge
  | fuel + 1, big, f =>
    if big ∧ f.num < o.maxnum then do
      let N := if o.cc then f.num * 2 - 1 else f.num + 7
      let f ← approxKeep Q cc F (regrow f N) (some o.cc)
      let s ← sumSq thr f.coeff N
      let b ← tooBig f.coeff N o.check (o.tol * s)
      adaptLoop thr Q cc F o fuel (b && !decide (N > 100)) f
    else .ok f

/-- polynomials.c:3925-4045 `orth_poly_expansion_approx_adapt`. -/
def approxAdapt (thr : K) (Q : PT → Nat → Rule K) (cc : Nat → Rule K) (F : List K → C (Option (List K))) (o : Opts K)
    (fuel : Nat) : C (Ope K) := do
  let f ← initOpts o o.start
  let f ← approxKeep Q cc F f (some o.cc)
  let b ← tooBig f.coeff o.start o.check o.tol
  let f ← adaptLoop thr Q cc F o fuel b f
  if o.final then round thr f else pure f

/-- polynomials.c:3592-3630 `orth_poly_expansion_roundt`: the sum that is compared with the threshold is always zero. -/
def roundt (f : Ope K) (thresh : K) : C (Ope K) :=
  if (0 : K) ≤ thresh then do
    let c ← forN 1 (fun ii c => do
      let v ← rd f.coeff ii
      wr c ii v) (List.replicate (1 + 50) 0)
    pure { f with num := 1, nalloc := 1 + 50, coeff := c }
  else .error .ub

end C3.Poly

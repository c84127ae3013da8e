/-
Integrals, inner products, norms and derivative expansions of orthogonal polynomial expansions (c3/lib_funcs/polynomials.c, hpoly.c).
FOURIER is not modelled.
-/
import Verif.Poly.Alg

namespace C3.Poly
open C3.Lin (dv)
variable {K : Type} [Field K] [LinearOrder K]

/-- polynomials.c:4078-4090 `cheb_integrate2`; `ii` runs over the even orders, here `ii = 2 i`. -/
def chebIntegrate (f : Ope K) : C K := do
  let s ← forN ((f.num + 1) / 2) (fun i out => do
    let c ← rd f.coeff (2 * i)
    let q ← dv (c * 2) (1 - ((2 * i * (2 * i) : Nat) : K))
    pure (out + q)) 0
  pure (s * f.map.islope)

/-- polynomials.c:4100-4108 `legendre_integrate`. -/
def legIntegrate (f : Ope K) : C K := do
  let c ← rd f.coeff 0
  pure (c * 2 * f.map.islope)

/-- polynomials.c:4437-4449 `orth_poly_expansion_integrate`; hpoly.c:116-120 `hermite_integrate`. -/
def integrate (f : Ope K) : C K :=
  match f.fam.pt with
  | .leg => legIntegrate f
  | .herm => rd f.coeff 0
  | .cheb => chebIntegrate f

/-- polynomials.c:4465-4479 `orth_poly_expansion_integrate_weighted`. -/
def integrateWeighted (f : Ope K) : C K := rd f.coeff 0

/-- polynomials.c:4493-4507 `orth_poly_expansion_inner_w`. -/
def innerW (a b : Ope K) : C K := do
  cassert (decide (a.fam.pt = b.fam.pt))
  forN (if a.num < b.num then a.num else b.num) (fun ii out => do
    let u ← rd a.coeff ii
    let v ← rd b.coeff ii
    pure (out + u * v * a.fam.norm ii)) 0

/-- polynomials.c:4524-4616 `orth_poly_expansion_inner` for two Hermite or two Legendre expansions; the cases with a Chebyshev
expansion go through an approximation, given as the argument `other`. -/
def inner (other : Ope K → Ope K → C K) (a b : Ope K) : C K :=
  if a.fam.pt = .herm ∧ b.fam.pt = .herm then innerW a b
  else if a.fam.pt = .cheb ∨ b.fam.pt = .cheb then other a b
  else if a.fam.pt = .herm ∨ b.fam.pt = .herm then .error .exit
  else do
    let w ← innerW a b
    pure (w * (a.ub - a.lb))

/-- polynomials.c:4629-4633 `orth_poly_expansion_norm_w`: the square root is taken twice. -/
def normW (sq : K → K) (f : Ope K) : C K := do
  let w ← innerW f f
  pure (sq (sq w))

/-- polynomials.c:4647-4652 `orth_poly_expansion_norm`. -/
def norm (sq : K → K) (other : Ope K → Ope K → C K) (f : Ope K) : C K := do
  let w ← inner other f f
  pure (sq w)

/-- polynomials.c:3211-3232 `orth_poly_expansion_param_grad_inner`. -/
def paramGradInner (a b : Ope K) (vals : List K) : C (Nat × List K) := do
  cassert (decide (a.fam.pt = b.fam.pt))
  let n := if a.num > b.num then b.num else a.num
  let v ← forN n (fun ii v => do
    let c ← rd b.coeff ii
    wr v ii c) vals
  let v ← forR n a.num (fun ii v => wr v ii 0) v
  pure (a.num, v)

/-- polynomials.c:3275-3298: the table `temp` and one entry of the gradient for Chebyshev expansions; the coefficients do not enter. -/
def chebGradEntry (num : Nat) (scale slope : K) (temp : List K) (ii : Nat) (g : K) : C K :=
  forN num (fun jj g => do
    let g ← if (ii + jj) % 2 = 0 then do
        let t ← rd temp ((ii + jj) / 2)
        pure (g + 2 * scale * t * slope)
      else pure g
    let n2 := if ii > jj then ii - jj else jj - ii
    if n2 % 2 = 0 then do
      let t ← rd temp (n2 / 2)
      pure (g + 2 * scale * t * slope)
    else pure g) g

/-- polynomials.c:3246-3308 `orth_poly_expansion_squared_norm_param_grad`. -/
def sqNormGrad (f : Ope K) (scale : K) (grad : List K) : C (List K) := do
  cassert (!f.krist)
  match f.fam.pt with
  | .leg => forN f.num (fun ii g => do
      let v ← rd g ii
      let c ← rd f.coeff ii
      wr g ii (v + 2 * scale * c * f.fam.norm ii * (f.ub - f.lb))) grad
  | .herm => forN f.num (fun ii g => do
      let v ← rd g ii
      let c ← rd f.coeff ii
      wr g ii (v + 2 * scale * c * f.fam.norm ii * f.map.slope)) grad
  | .cheb => do
    let temp ← forN f.num (fun ii t => do
      let q ← dv 2 (1 - ((2 * ii * 2 * ii : Nat) : K))
      wr t ii q) (List.replicate f.num 0)
    forN f.num (fun ii g => do
      let v ← rd g ii
      let v ← chebGradEntry f.num scale f.map.slope temp ii v
      wr g ii v) grad

/-- polynomials.h `enum coeff_decay_type`. -/
inductive Decay | alg | exp | none
  deriving DecidableEq

/-- The factor of order `ii` (polynomials.c:3340, 3345, 3350): `pow(decay_param,ii)` or `pow(ii+1,-decay_param)`; `pw` is the real power. -/
def decayFac (pw : K → K → K) (d : Decay) (par : K) (ii : Nat) : K :=
  match d with
  | .alg => par ^ ii
  | .exp => pw (ii + 1) (-par)
  | .none => 1

/-- polynomials.c:3322-3398 `orth_poly_expansion_rkhs_squared_norm` for Legendre and Hermite expansions; the Chebyshev branch is not
modelled (argument `cheb`). -/
def rkhsNorm (pw : K → K → K) (cheb : Ope K → C K) (f : Ope K) (d : Decay) (par : K) : C K := do
  cassert (!f.krist)
  match f.fam.pt with
  | .leg => forN f.num (fun ii out => do
      let c ← rd f.coeff ii
      pure (out + c * c * decayFac pw d par ii * f.fam.norm ii * 2 * f.map.slope)) 0
  | .herm => forN f.num (fun ii out => do
      let c ← rd f.coeff ii
      pure (out + c * c * decayFac pw d par ii * f.fam.norm ii)) 0
  | .cheb => cheb f

/-- polynomials.c:3419-3505 `orth_poly_expansion_rkhs_squared_norm_param_grad` for Legendre and Hermite expansions. -/
def rkhsGrad (pw : K → K → K) (cheb : Ope K → List K → C (List K)) (f : Ope K) (scale : K) (d : Decay) (par : K) (grad : List K) :
    C (List K) := do
  cassert (!f.krist)
  match f.fam.pt with
  | .cheb => cheb f grad
  | _ => forN f.num (fun ii g => do
      let v ← rd g ii
      let c ← rd f.coeff ii
      wr g ii (v + 2 * scale * c * decayFac pw d par ii)) grad

/-- polynomials.c:2304-2307: all allocated coefficients are cleared. -/
def clear (f : Ope K) : C (Ope K) := do
  let c ← forN f.nalloc (fun ii c => wr c ii 0) f.coeff
  pure { f with coeff := c }

/-- polynomials.c:2318-2326: the coefficients of the derivative of a Legendre expansion; the inner loop runs over `jj = ii+1, ii+3, ...`,
here `jj = ii + 1 + 2 j`. -/
def legDerivLoop (sq : K → K) (p : Ope K) (out : List K) : C (List K) :=
  forN (p.num - 1) (fun ii out => do
    let out ← forN ((p.num - ii) / 2) (fun j out => do
      let o ← rd out ii
      let c ← rd p.coeff (ii + 1 + 2 * j)
      wr out ii (o + c * sq ((2 * (ii + 1 + 2 * j) + 1 : Nat) : K))) out
    let o ← rd out ii
    wr out ii (o * (sq ((2 * ii + 1 : Nat) : K) * p.map.slope))) out

/-- polynomials.c:2291-2341 `orth_poly_expansion_deriv`; for the other families the derivative is approximated (argument `other`). -/
def deriv (thr : K) (sq : K → K) (other : Ope K → Ope K → C (Ope K)) (pin : Ope K) : C (Ope K) := do
  cassert (!pin.krist)
  let p ← copy pin
  let p ← round thr p
  let out ← copy p
  let out ← clear out
  if p.num = 1 then round thr out
  else do
    let out := { out with num := out.num - 1 }
    match p.fam.pt with
    | .leg => do
      let c ← legDerivLoop sq p out.coeff
      round thr { out with coeff := c }
    | _ => do
      let out ← other p out
      round thr out

end C3.Poly

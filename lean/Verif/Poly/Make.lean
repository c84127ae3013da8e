/-
Constructors of polynomial expansions (c3/lib_funcs/polynomials.c): quadratic functions, single orthonormal polynomials, orthonormal bases.
The constant, the zero and the linear function are in Poly/Model.lean. The refusal of NaN and infinite arguments is not modelled (numbers are
elements of a field); FOURIER is in Fft/FourierModel.lean.
-/
import Verif.Poly.Prod

namespace C3.Poly
open C3.Lin (dv)
variable {K : Type} [Field K] [LinearOrder K]

/-- polynomials.c:1958-1977 `orth_poly_expansion_linear_update`; the number of polynomials is not looked at. -/
def linearUpdate (p : Ope K) (a offset : K) : C (Ope K) := linearSet p a offset

/-- polynomials.c:809-815 `eval_quad_func`. -/
def quadFunc (scale offset x : K) : C K := .ok (scale * (x - offset) * (x - offset))

/-- polynomials.c:1988-2010 `orth_poly_expansion_quadratic`. -/
def quadratic (Q : PT → Nat → Rule K) (a offset : K) (o : Opts K) : C (Ope K) := do
  let p ← initOpts o 3
  approx Q (quadFunc a offset) p

/-- polynomials.c:2030-2046, 2102-2106: the only coefficient; `m` is the slope of the map from the reference domain. -/
def unitCoeff (sq : K → K) (fam : Fam K) (order : Nat) (m : K) : C K := do
  let v ← dv 1 (sq (fam.norm order))
  match fam.pt with
  | .leg => do
    let v ← dv v (sq 2)
    dv v (sq m)
  | _ => dv v (sq m)

/-- polynomials.c:2024-2063 `orth_poly_expansion_genorder`. -/
def genorder (sq : K → K) (order : Nat) (o : Opts K) : C (Ope K) := do
  let p ← initOpts o (order + 1)
  let v ← unitCoeff sq o.fam order p.map.islope
  let c ← wr p.coeff order v
  pure { p with coeff := c }

/-- polynomials.c:4537-4543: the inner product of two Chebyshev expansions is the integral of their product. -/
def chebInner (thr eps : K) (sq : K → K) (Q : PT → Nat → Rule K) (legTab hermTab : List K) (a b : Ope K) : C K := do
  let p ← prod thr eps sq Q legTab hermTab a b
  integrate p

/-- polynomials.c:2081-2084: the Chebyshev polynomial number `ii`. -/
def unitOrder (o : Opts K) (ii : Nat) : C (Ope K) := do
  let p ← initOpts o (ii + 1)
  let c ← wr p.coeff ii 1
  pure { p with coeff := c }

/-- The loop that creates the functions `f[0]`, …, `f[n-1]`. -/
def makeAll (mk : Nat → C (Ope K)) (n : Nat) : C (List (Ope K)) :=
  forN n (fun ii fs => do
    let g ← mk ii
    pure (fs ++ [g])) []

/-- polynomials.c:2091-2094: the inner loop of the orthogonalization. -/
def gsSweep (thr eps : K) (inn : Ope K → Ope K → C K) (n ii : Nat) (fs : List (Ope K)) : C (List (Ope K)) :=
  forR (ii + 1) n (fun jj fs => do
    let fi ← rd fs ii
    let fj ← rd fs jj
    let proj ← inn fi fj
    let h ← axpy thr eps (-proj) fi fj
    wr fs jj h) fs

/-- polynomials.c:2087-2096: step `ii` of the orthogonalization; `tiny` is `1e-200`. -/
def gsStep (thr eps tiny : K) (sq : K → K) (inn : Ope K → Ope K → C K) (n ii : Nat) (fs : List (Ope K)) : C (List (Ope K)) := do
  let fi ← rd fs ii
  let w ← inn fi fi
  if sq w > tiny then do
    let r ← dv 1 (sq w)
    let g ← scale thr r fi
    let fs ← wr fs ii g
    gsSweep thr eps inn n ii fs
  else pure fs

/-- polynomials.c:2076-2108 `orth_poly_expansion_orth_basis` for CHEBYSHEV, HERMITE and LEGENDRE. -/
def orthBasis (thr eps tiny : K) (sq : K → K) (Q : PT → Nat → Rule K) (legTab hermTab : List K) (n : Nat) (o : Opts K) : C (List (Ope K)) :=
  if o.fam.pt = .cheb then do
    let fs ← makeAll (unitOrder o) n
    forN n (gsStep thr eps tiny sq (chebInner thr eps sq Q legTab hermTab) n) fs
  else makeAll (fun ii => genorder sq ii o) n

end C3.Poly

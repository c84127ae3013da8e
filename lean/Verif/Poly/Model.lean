/-
Orthogonal polynomial expansions (c3/lib_funcs/polynomials.c): space mapping, evaluation, parameter gradients, derivatives.

Families LEGENDRE, CHEBYSHEV and HERMITE; FOURIER (complex coefficients, fourier.c) is modelled in Fft/FourierModel.lean, STANDARD is not modelled. Numbers are
elements of a linearly ordered field, i.e. exact; `sqrt` of the C library is the argument `sq`. A division by zero (infinity or
NaN in the code) is the outcome `ub`.
-/
import Verif.Lin.Model

namespace C3.Poly
open C3.Lin (dv)
variable {K : Type} [Field K] [LinearOrder K]

/-- polynomials.h:70 `enum poly_type`. -/
inductive PT | leg | cheb | herm
  deriving DecidableEq

/-- polynomials.h `struct OrthPoly`: recurrence sequences, reference domain, first two polynomials, squared norms. -/
structure Fam (K : Type) where
  pt : PT
  an : Nat → K
  bn : Nat → K
  cn : Nat → K
  lower : K
  upper : K
  c0 : K
  l0 : K
  l1 : K
  norm : Nat → K

/-- polynomials.c:1118-1141 `init_cheb_poly`, norms polynomials.c:712-719 (`pi` is `M_PI`). -/
def chebFam (pi : K) : Fam K where
  pt := .cheb
  an := fun _ => 2
  bn := fun _ => 0
  cn := fun _ => -1
  lower := -1
  upper := 1
  c0 := 1
  l0 := 0
  l1 := 1
  norm := fun n => if n = 0 then pi else pi / 2

/-- polynomials.c:72-80 `struct SpaceMapping`; only the linear mapping exists. -/
structure SMap (K : Type) where
  slope : K
  off : K
  islope : K
  ioff : K
  deriving DecidableEq

/-- polynomials.c:229-238 `space_mapping_map`. -/
def SMap.map (m : SMap K) (x : K) : K := m.slope * x + m.off
/-- polynomials.c:253-262 `space_mapping_map_inverse`. -/
def SMap.inv (m : SMap K) (x : K) : K := m.islope * x + m.ioff

/-- polynomials.h `struct OrthPolyExpansion`: `coeff` is the allocated block, `nalloc` the recorded allocation size. -/
structure Ope (K : Type) where
  fam : Fam K
  num : Nat
  lb : K
  ub : K
  map : SMap K
  nalloc : Nat
  coeff : List K
  krist : Bool

/-- polynomials.c:1540-1612 `orth_poly_expansion_init`, with `OPECALLOC = 50` additional coefficients. -/
def init (fam : Fam K) (num : Nat) (lb ub : K) : C (Ope K) :=
  match fam.pt with
  | .herm => .ok ⟨fam, num, lb, ub, ⟨1, 0, 1, 0⟩, num + 50, List.replicate (num + 50) 0, false⟩
  | _ => do
    let m ← dv (fam.upper - fam.lower) (ub - lb)
    let off := fam.upper - m * ub
    let im ← dv 1 m
    let io ← dv (-off) m
    pure ⟨fam, num, lb, ub, ⟨m, off, im, io⟩, num + 50, List.replicate (num + 50) 0, false⟩

/-- polynomials.c:817-843 `struct OpeOpts`. `cc` is the quadrature rule `C3_CC_QUAD` (else `C3_GAUSS_QUAD`). -/
structure Opts (K : Type) where
  fam : Fam K
  start : Nat
  maxnum : Nat
  check : Nat
  tol : K
  lb : K
  ub : K
  mean : K
  std : K
  final : Bool
  krist : Bool
  cc : Bool

/-- polynomials.c:1625-1642 `orth_poly_expansion_init_from_opts`. -/
def initOpts (o : Opts K) (num : Nat) : C (Ope K) := do
  let p ← init o.fam num o.lb o.ub
  match o.fam.pt with
  | .herm => do
    let s ← dv 1 o.std
    let t ← dv (-o.mean) o.std
    pure { p with map := ⟨s, t, o.std, o.mean⟩, krist := o.krist }
  | _ => pure { p with krist := o.krist }

/-- polynomials.c:1654-1666 `orth_poly_expansion_create_with_params`. -/
def createWithParams (o : Opts K) (n : Nat) (param : List K) : C (Ope K) := do
  let p ← initOpts o n
  let c ← forN n (fun ii c => do
    let v ← rd param ii
    wr c ii v) p.coeff
  pure { p with coeff := c }

/-- polynomials.c:1329-1334 `eval_orth_poly_wp(rec, p2, p1, n, x)`. -/
def wp (fam : Fam K) (p2 p1 : K) (n : Nat) (x : K) : K := (fam.an n * x + fam.bn n) * p1 + fam.cn n * p2

/-- polynomials.c:1469-1491 `orth_poly_eval`: the loop uses the recurrence coefficients of the last order throughout. -/
def orthPolyEval (fam : Fam K) (n : Nat) (x : K) : C K :=
  if n = 0 then .ok fam.c0
  else if n = 1 then .ok (fam.l1 * x + fam.l0)
  else do
    let s ← forR 2 (n + 1) (fun _ (s : K × K × K) =>
      pure (s.2.1, (fam.an n * x + fam.bn n) * s.2.1 + fam.cn n * s.1, (fam.an n * x + fam.bn n) * s.2.1 + fam.cn n * s.1))
      (fam.c0, fam.l1 * x + fam.l0, 0)
    pure s.2.2

/-- Running values of the evaluation loops: the array `p[2]`, the sum, and the sum of squares of the basis functions.
`p[1]` is uninitialised (here 0) while only one polynomial is in use; it is then never read. -/
structure St (K : Type) where
  p0 : K
  p1 : K
  out : K
  den : K

/-- polynomials.c:2973-2980. -/
def evalFirst (f : Ope K) : C (St K) := do
  let c ← rd f.coeff 0
  pure ⟨f.fam.c0, 0, 0 + f.fam.c0 * c, 0 + f.fam.c0 * f.fam.c0⟩

/-- polynomials.c:2981-2987. -/
def evalSecond (f : Ope K) (xn : K) (s : St K) : C (St K) :=
  if f.num > 1 then do
    let c ← rd f.coeff 1
    pure ⟨s.p0, f.fam.l0 + f.fam.l1 * xn, s.out + (f.fam.l0 + f.fam.l1 * xn) * c,
      s.den + (f.fam.l0 + f.fam.l1 * xn) * (f.fam.l0 + f.fam.l1 * xn)⟩
  else pure s

/-- polynomials.c:2988-2995. -/
def evalStep (f : Ope K) (xn : K) (it : Nat) (s : St K) : C (St K) := do
  let c ← rd f.coeff it
  pure ⟨s.p1, wp f.fam s.p0 s.p1 it xn, s.out + c * wp f.fam s.p0 s.p1 it xn,
    s.den + wp f.fam s.p0 s.p1 it xn * wp f.fam s.p0 s.p1 it xn⟩

/-- polynomials.c:2966-2995, the summation loop of `orth_poly_expansion_eval`. -/
def evalSum (f : Ope K) (xn : K) : C (St K) := do
  let s ← evalFirst f
  let s ← evalSecond f xn s
  forR 2 f.num (evalStep f xn) s

/-- polynomials.c:2930-2948 `chebyshev_poly_expansion_eval`. Without polynomials `num_poly-1` wraps and the loop reads beyond the
array. -/
def clenshaw (f : Ope K) (x : K) : C K := do
  cassert (!f.krist)
  if f.num = 0 then .error .oob
  else do
    let s ← forN (f.num - 1) (fun i (s : K × K) => do
      let c ← rd f.coeff (f.num - 1 - i)
      pure (c + 2 * f.map.map x * s.1 - s.2, s.1)) (0, 0)
    let c ← rd f.coeff 0
    pure (c + f.map.map x * s.1 - s.2)

/-- polynomials.c:2998-3003: division by the square root of the mean square of the basis functions. -/
def kristScale (sq : K → K) (f : Ope K) (out den : K) : C K :=
  if f.krist then do
    let q ← dv den f.num
    dv out (sq q)
  else pure out

/-- polynomials.c:2959-3009 `orth_poly_expansion_eval`. -/
def eval (sq : K → K) (f : Ope K) (x : K) : C K :=
  match f.fam.pt with
  | .cheb => clenshaw f x
  | _ => do
    let s ← evalSum f (f.map.map x)
    kristScale sq f s.out s.den

/-- polynomials.c:3073-3079 `orth_poly_expansion_evalN`. -/
def evalN (sq : K → K) (f : Ope K) (n : Nat) (x : List K) (incx : Nat) (y : List K) (incy : Nat) : C (List K) :=
  forN n (fun ii y => do
    let v ← rd x (ii * incx)
    let r ← eval sq f v
    wr y (ii * incy) r) y

/-- polynomials.c:3018-3057 `orth_poly_expansion_get_kristoffel_weight`. -/
def kristWeight (sq : K → K) (f : Ope K) (x : K) : C K := do
  let xn := f.map.map x
  let s : K × K × K := if f.num > 1 then
      (f.fam.c0, f.fam.l0 + f.fam.l1 * xn, 0 + f.fam.c0 * f.fam.c0 + (f.fam.l0 + f.fam.l1 * xn) * (f.fam.l0 + f.fam.l1 * xn))
    else (f.fam.c0, 0, 0 + f.fam.c0 * f.fam.c0)
  let s ← forR 2 f.num (fun it (s : K × K × K) =>
    pure (s.2.1, wp f.fam s.1 s.2.1 it xn, s.2.2 + wp f.fam s.1 s.2.1 it xn * wp f.fam s.1 s.2.1 it xn)) s
  let q ← dv s.2.2 f.num
  pure (sq q)

/-- `out[off+ii] += p * parr[ii]->coeff[iter]` for those expansions that have the order (polynomials.c:2829-2845). The first order
is added unconditionally (2824-2826). -/
def arrAdd (n : Nat) (parr : List (Ope K)) (always : Bool) (it : Nat) (p : K) (off : Nat) (out : List K) : C (List K) :=
  forN n (fun ii out => do
    let f ← rd parr ii
    if always || decide (f.num > it) then do
      let c ← rd f.coeff it
      let o ← rd out (off + ii)
      wr out (off + ii) (o + p * c)
    else pure out) out

/-- Evaluation one by one (polynomials.c:2789-2793, 2805-2810). -/
def arrEach (sq : K → K) (n : Nat) (parr : List (Ope K)) (x : K) (off : Nat) (out : List K) : C (List K) :=
  forN n (fun ii out => do
    let f ← rd parr ii
    let v ← eval sq f x
    wr out (off + ii) v) out

/-- polynomials.c:2795-2803: do all expansions have the type of the first (with the early `break`). -/
def allSame (n : Nat) (parr : List (Ope K)) (pt : PT) : C Bool :=
  forR 1 n (fun ii b => if b then do
      let f ← rd parr ii
      pure (decide (f.fam.pt = pt))
    else pure false) true

/-- polynomials.c:2813-2819: largest number of polynomials; the outputs are cleared. -/
def arrMax (n : Nat) (parr : List (Ope K)) (off : Nat) (out : List K) : C (Nat × List K) :=
  forN n (fun ii (s : Nat × List K) => do
    let f ← rd parr ii
    let o ← wr s.2 (off + ii) 0
    pure (if f.num > s.1 then f.num else s.1, o)) (0, out)

/-- polynomials.c:2822-2849: all expansions with the recurrence and mapping of the first one. -/
def arrJoint (n : Nat) (parr : List (Ope K)) (g : Ope K) (xn : K) (maxpoly off : Nat) (out : List K) : C (List K) := do
  let out ← arrAdd n parr true 0 g.fam.c0 off out
  let out ← arrAdd n parr false 1 (g.fam.l0 + g.fam.l1 * xn) off out
  let s ← forR 2 maxpoly (fun it (s : K × K × List K) => do
    let out ← arrAdd n parr false it (wp g.fam s.1 s.2.1 it xn) off s.2.2
    pure (s.2.1, wp g.fam s.1 s.2.1 it xn, out)) (g.fam.c0, g.fam.l0 + g.fam.l1 * xn, out)
  pure s.2.2

/-- polynomials.c:2782-2851 `orth_poly_expansion_arr_eval(n,parr,x,out + off)`. -/
def arrEval (sq : K → K) (n : Nat) (parr : List (Ope K)) (x : K) (off : Nat) (out : List K) : C (List K) := do
  let g ← rd parr 0
  if g.krist then arrEach sq n parr x off out
  else do
    let same ← allSame n parr g.fam.pt
    if !same || decide (g.fam.pt = .cheb) then arrEach sq n parr x off out
    else do
      let r ← arrMax n parr off out
      arrJoint n parr g (g.map.map x) r.1 off r.2

/-- polynomials.c:2870-2920 `orth_poly_expansion_arr_evalN`; `big` is `1e100`, evaluations above it end the program. -/
def arrEvalN (sq : K → K) (big : K) (n : Nat) (parr : List (Ope K)) (N : Nat) (x : List K) (incx : Nat) (y : List K)
    (incy : Nat) : C (List K) := do
  let g ← rd parr 0
  if g.krist then
    forN N (fun jj y => do
      let v ← rd x (jj * incx)
      arrEach sq n parr v (jj * incy) y) y
  else do
    let y ← forN N (fun jj y => forN n (fun ii y => wr y (ii + jj * incy) 0) y) y
    let y ← forN N (fun jj y => do
      let v ← rd x (jj * incx)
      arrEval sq n parr v (jj * incy) y) y
    let _ ← forN N (fun jj (_ : Unit) => forN n (fun ii (_ : Unit) => do
      let v ← rd y (ii + jj * incy)
      if v > big then .error .exit else pure ()) ()) ()
    pure y

/-- polynomials.c:3104-3128: one row of the parameter gradient; state: values, sum of squares, array. -/
structure Gt (K : Type) where
  p0 : K
  p1 : K
  den : K
  grad : List K

/-- polynomials.c:3121-3127. -/
def gradStep (f : Ope K) (xn : K) (off : Nat) (it : Nat) (s : Gt K) : C (Gt K) := do
  let g ← wr s.grad (off + it) (wp f.fam s.p0 s.p1 it xn)
  pure ⟨s.p1, wp f.fam s.p0 s.p1 it xn, s.den + wp f.fam s.p0 s.p1 it xn * wp f.fam s.p0 s.p1 it xn, g⟩

/-- polynomials.c:3109-3128, 3163-3189. -/
def gradRow (f : Ope K) (xn : K) (off : Nat) (grad : List K) : C (Gt K) := do
  let g ← wr grad off f.fam.c0
  if f.num > 1 then do
    let g ← wr g (off + 1) (f.fam.l0 + f.fam.l1 * xn)
    forR 2 f.num (gradStep f xn off) ⟨f.fam.c0, f.fam.l0 + f.fam.l1 * xn,
      f.fam.c0 * f.fam.c0 + (f.fam.l0 + f.fam.l1 * xn) * (f.fam.l0 + f.fam.l1 * xn), g⟩
  else pure ⟨f.fam.c0, 0, f.fam.c0 * f.fam.c0, g⟩

/-- polynomials.c:3130-3138, 3190-3197. -/
def gradScale (sq : K → K) (f : Ope K) (den : K) (off : Nat) (grad : List K) : C (List K) :=
  if f.krist then forN f.num (fun jj g => do
    let v ← rd g (off + jj)
    let q ← dv den f.num
    let r ← dv v (sq q)
    wr g (off + jj) r) grad
  else pure grad

/-- polynomials.c:3092-3141 `orth_poly_expansion_param_grad_eval`. -/
def paramGrad (sq : K → K) (f : Ope K) (nx : Nat) (x grad : List K) : C (List K) :=
  forN nx (fun ii grad => do
    let v ← rd x ii
    let s ← gradRow f (f.map.map v) (ii * f.num) grad
    gradScale sq f s.den (ii * f.num) s.grad) grad

/-- polynomials.c:3150-3199 `orth_poly_expansion_param_grad_eval2`: the gradient and the value, the latter not rescaled. The sum
`out` is accumulated in the loop of `gradRow` in the code and separately here. -/
def paramGrad2 (sq : K → K) (f : Ope K) (x : K) (grad : List K) : C (K × List K) := do
  let s ← gradRow f (f.map.map x) 0 grad
  let o ← evalSum f (f.map.map x)
  let g ← gradScale sq f s.den 0 s.grad
  pure (o.out, g)

/-- Running values of the derivative loops. -/
structure Dt (K : Type) where
  p0 : K
  p1 : K
  g0 : K
  g1 : K
  out : K

/-- polynomials.c:2201-2216. -/
def derivStep (f : Ope K) (xn : K) (it : Nat) (s : Dt K) : C (Dt K) := do
  let c ← rd f.coeff it
  let gn := (f.fam.an it * xn + f.fam.bn it) * s.g1 + f.fam.an it * s.p1 + f.fam.cn it * s.g0
  pure ⟨s.p1, wp f.fam s.p0 s.p1 it xn, s.g1, gn, s.out + c * gn⟩

/-- polynomials.c:2193-2198. -/
def derivSecond (f : Ope K) (xn : K) (out : K) : C (Dt K) :=
  if f.num > 1 then do
    let c ← rd f.coeff 1
    pure ⟨f.fam.c0, f.fam.l0 + f.fam.l1 * xn, 0, f.fam.l1, out + f.fam.l1 * c⟩
  else pure ⟨f.fam.c0, 0, 0, 0, out⟩

/-- polynomials.c:2166-2220 `orth_poly_expansion_deriv_eval`. -/
def derivEval (f : Ope K) (x : K) : C K := do
  cassert (!f.krist)
  let c ← rd f.coeff 0
  let s ← derivSecond f (f.map.map x) (0 + 0 * c)
  let s ← forR 2 f.num (derivStep f (f.map.map x)) s
  pure (s.out * f.map.slope)

/-- polynomials.c:2265-2270; the arrays `cheb_eval`, `cheb_evald` are kept as their last two entries. -/
def chebDStep (f : Ope K) (xn : K) (ii : Nat) (s : Dt K) : C (Dt K) := do
  let c ← rd f.coeff ii
  let gn := 2 * s.p1 + 2 * xn * s.g1 - s.g0
  pure ⟨s.p1, 2 * xn * s.p1 - s.p0, s.g1, gn, s.out + c * gn⟩

/-- polynomials.c:2233-2276 `cheb_expansion_deriv_eval`. -/
def chebDerivEval (f : Ope K) (x : K) : C K := do
  cassert (!f.krist)
  if f.num = 1 then .ok 0
  else if f.num = 2 then do
    let c1 ← rd f.coeff 1
    pure (c1 * f.map.slope)
  else if f.num = 3 then do
    let c1 ← rd f.coeff 1
    let c2 ← rd f.coeff 2
    pure ((c1 + c2 * 4 * f.map.map x) * f.map.slope)
  else if f.num = 0 then .error .oob
  else do
    let xn := f.map.map x
    let c1 ← rd f.coeff 1
    let c2 ← rd f.coeff 2
    let s ← forR 3 f.num (chebDStep f xn) ⟨xn, 2 * xn * xn - 1, 1, 4 * xn, c1 * 1 + c2 * (4 * xn)⟩
    pure (s.out * f.map.slope)

/-- Running values for second derivatives. -/
structure Et (K : Type) where
  p0 : K
  p1 : K
  g0 : K
  g1 : K
  h0 : K
  h1 : K
  out : K

/-- polynomials.c:2390-2398. -/
def chebDDStep (f : Ope K) (xn : K) (ii : Nat) (s : Et K) : C (Et K) := do
  let c ← rd f.coeff ii
  let hn := 4 * s.g1 + 2 * xn * s.h1 - s.h0
  pure ⟨s.p1, 2 * xn * s.p1 - s.p0, s.g1, 2 * s.p1 + 2 * xn * s.g1 - s.g0, s.h1, hn, s.out + c * hn⟩

/-- polynomials.c:2351-2409 `cheb_expansion_dderiv_eval`; for three polynomials the chain-rule factor is missing. -/
def chebDDerivEval (f : Ope K) (x : K) : C K := do
  cassert (!f.krist)
  if f.num ≤ 2 then .ok 0
  else if f.num = 3 then do
    let c2 ← rd f.coeff 2
    pure (c2 * 4)
  else if f.num = 4 then do
    let c2 ← rd f.coeff 2
    let c3 ← rd f.coeff 3
    pure ((c2 * 4 + c3 * 24 * f.map.map x) * f.map.slope * f.map.slope)
  else do
    let xn := f.map.map x
    let t2 := 2 * xn * xn - 1
    let t3 := 2 * xn * t2 - xn
    let c2 ← rd f.coeff 2
    let c3 ← rd f.coeff 3
    let s ← forR 4 f.num (chebDDStep f xn) ⟨t2, t3, 4 * xn, 2 * t2 + 2 * xn * (4 * xn) - 1, 4, 24 * xn, c2 * 4 + c3 * (24 * xn)⟩
    pure (s.out * (f.map.slope * f.map.slope))

/-- polynomials.c:1885-1912 `orth_poly_expansion_constant` with `ZEROTHRESH = thr`; infinite, undefined or huge values (`lim` is
`1e100`) are refused. The zero function is polynomials.c:1849-1876 with one polynomial. -/
def constant (thr lim : K) (a : K) (o : Opts K) : C (Ope K) := do
  cassert (decide (|a| < lim))
  let p ← initOpts o 1
  let v ← if |a| < thr then pure 0 else dv a p.fam.c0
  let c ← wr p.coeff 0 v
  pure { p with coeff := c }

/-- polynomials.c:1849-1876 `orth_poly_expansion_zero`. -/
def zero (o : Opts K) (force : Bool) : C (Ope K) := do
  let n := if force then o.start else 1
  let p ← initOpts o n
  let c ← forN n (fun ii c => wr c ii 0) p.coeff
  pure { p with coeff := c }

/-- polynomials.c:1937-1941, 1969-1972: coefficients of `a x + offset`. -/
def linearSet (p : Ope K) (a offset : K) : C (Ope K) := do
  let c1 ← dv a (p.fam.l1 * p.map.slope)
  let c ← wr p.coeff 1 c1
  let c1 ← rd c 1
  let c0 ← dv (offset - p.fam.l0 - c1 * p.fam.l1 * p.map.off) p.fam.c0
  let c ← wr c 0 c0
  pure { p with coeff := c }

/-- polynomials.c:1922-1944 `orth_poly_expansion_linear`. -/
def linear (a offset : K) (o : Opts K) : C (Ope K) := do
  let p ← initOpts o 2
  linearSet p a offset

/-- polynomials.c:1674-1700 `orth_poly_expansion_pad_params`. -/
def pad (p : Ope K) (n : Nat) : C (Ope K) :=
  if p.nalloc < n then do
    let c ← forN p.num (fun ii c => do
      let v ← rd p.coeff ii
      wr c ii v) (List.replicate n 0)
    pure { p with coeff := c, nalloc := n, num := n }
  else do
    let c ← forR p.num n (fun ii c => wr c ii 0) p.coeff
    pure { p with coeff := c, num := n }

end C3.Poly

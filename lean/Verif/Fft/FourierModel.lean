/-
Fourier expansions (c3/lib_funcs/fourier.c and the FOURIER branches of polynomials.c).

Exact complex numbers; `cexp`, `creal`, `cabs`, `M_PI` are the mathematical functions. `thr` is `ZEROTHRESH`, `eps` is `DBL_EPSILON`. The unused real
coefficient array of a Fourier expansion is left out. Failing `malloc` is not modelled.
-/
import Verif.Fft.Model
import Verif.Poly.Model

namespace C3.Fourier

open Complex (I exp)
open C3.Lin (dv)
open C3.Poly (SMap)

/-- polynomials.h `struct OrthPolyExpansion` with family FOURIER: `cc` is the block `ccoeff`, `nalloc` its recorded size. -/
structure Fe where
  num : Nat
  lb : ℝ
  ub : ℝ
  map : SMap ℝ
  nalloc : Nat
  cc : List ℂ
  krist : Bool

/-- polynomials.c:1540-1612 `orth_poly_expansion_init` with the family of fourier.c:73-98 (`lower = 0`, `upper = 2 pi`). -/
noncomputable def init (num : Nat) (lb ub : ℝ) : C Fe := do
  let m ← dv (2 * Real.pi - 0) (ub - lb)
  let off := 2 * Real.pi - m * ub
  let im ← dv 1 m
  let io ← dv (-off) m
  pure ⟨num, lb, ub, ⟨m, off, im, io⟩, num + 50, List.replicate (num + 50) 0, false⟩

/-- polynomials.c:1774-1818 `orth_poly_expansion_copy`, FOURIER branch. -/
def copy (f : Fe) : C Fe := do
  cassert (decide (f.nalloc ≥ f.num))
  let c ← forN f.num (fun ii c => do
    let v ← rd f.cc ii
    wr c ii v) (List.replicate f.nalloc 0)
  pure { f with cc := c }

/-- fourier.c:113-117 first loop of the evaluation: state `out`, `basis`. -/
noncomputable def upLoop (f : Fe) (z : ℂ) : C (ℂ × ℂ) :=
  forN f.num (fun ii (s : ℂ × ℂ) => do
    let c ← rd f.cc ii
    pure (s.1 + c * s.2, s.2 * z)) (0, 1)

/-- fourier.c:119-123 second loop; `val` is never zero, so the quotients are defined. -/
noncomputable def downLoop (f : Fe) (z out : ℂ) : C (ℂ × ℂ) :=
  forR 1 (max 1 f.num) (fun ii (s : ℂ × ℂ) => do
    let c ← rd f.cc ii
    pure (s.1 + (starRingEnd ℂ) c * s.2, s.2 / z)) (out, 1 / z)

/-- fourier.c:102-126 `fourier_expansion_eval`. -/
noncomputable def eval (f : Fe) (x : ℝ) : C ℝ := do
  cassert (!f.krist)
  let z := exp (I * (f.map.map x : ℝ))
  let s ← upLoop f z
  let s ← downLoop f z s.1
  pure s.1.re

/-- fourier.c:148-151. -/
noncomputable def dUpLoop (f : Fe) (z : ℂ) : C (ℂ × ℂ) :=
  forR 1 (max 1 f.num) (fun ii (s : ℂ × ℂ) => do
    let c ← rd f.cc ii
    pure (s.1 + c * s.2 * ii * I, s.2 * z)) (0, z)

/-- fourier.c:153-157. -/
noncomputable def dDownLoop (f : Fe) (z out : ℂ) : C (ℂ × ℂ) :=
  forR 1 (max 1 f.num) (fun ii (s : ℂ × ℂ) => do
    let c ← rd f.cc ii
    pure (s.1 - (starRingEnd ℂ) c * s.2 * ii * I, s.2 / z)) (out, 1 / z)

/-- fourier.c:137-162 `fourier_expansion_deriv_eval`; `space_mapping_map_deriv` (polynomials.c:240-251) is the slope. -/
noncomputable def derivEval (f : Fe) (x : ℝ) : C ℝ := do
  cassert (!f.krist)
  let z := exp (I * (f.map.map x : ℝ))
  let s ← dUpLoop f z
  let s ← dDownLoop f z s.1
  pure (s.1.re * f.map.slope)

/-- fourier.c:171-184 `fourier_expansion_deriv`. -/
noncomputable def deriv (f : Fe) : C Fe := do
  cassert (!f.krist)
  let g ← copy f
  let c ← wr g.cc 0 0
  let c ← forR 1 (max 1 f.num) (fun ii c => do
    let v ← rd c ii
    wr c ii (v * (I * ii * f.map.slope))) c
  pure { g with cc := c }

/-- fourier.c:193-206 `fourier_expansion_dderiv`. -/
noncomputable def dderiv (f : Fe) : C Fe := do
  cassert (!f.krist)
  let g ← copy f
  let c ← wr g.cc 0 0
  let c ← forR 1 (max 1 f.num) (fun ii c => do
    let v ← rd c ii
    wr c ii (v * ((-1 * (ii * ii : ℕ) * f.map.slope * f.map.slope : ℝ) : ℂ))) c
  pure { g with cc := c }

/-- fourier.c:232-247 the points in the domain of the function. -/
noncomputable def points (f : Fe) (n : Nat) : C (List ℝ) := do
  let frac := 2 * Real.pi / n
  let q ← forN n (fun ii q => wr q ii (frac * ii)) (List.replicate n 0)
  forN n (fun ii p => do
    let v ← rd q ii
    wr p ii (f.map.inv v)) (List.replicate n 0)

/-- fourier.c:219-304 `fourier_expansion_approx_vec`: `fw` is the wrapped function (its code and its values). The result is the returned code and the
expansion. For `num_poly = 1` there are no points; the quotient `frac` is then not used. -/
noncomputable def approxVec (f : Fe) (fw : List ℝ → C (Nat × List ℝ)) : C (Nat × Fe) := do
  let N : BitVec 64 := (BitVec.ofNat 64 f.num - 1) * 2
  let n := N.toNat
  let pts ← points f n
  let r ← fw pts
  if r.1 ≠ 0 then pure (r.1, f)
  else do
    let fvc ← forN n (fun ii c => do
      let v ← rd r.2 ii
      wr c ii (v : ℂ)) (List.replicate n 0)
    let X ← Fft.fft N fvc 1 (List.replicate n 0) 1
    if X.1 ≠ 0 then pure (1, f)
    else do
      let a ← rd X.2 0
      let c ← wr f.cc 0 (a / n)
      let c ← forR 1 (max 1 f.num) (fun ii c => do
        let a ← rd X.2 ii
        wr c ii (a / n)) c
      pure (r.1, { f with cc := c })

/-- polynomials.c:3930-3940 FOURIER branch of `orth_poly_expansion_approx_adapt`: the code is dropped. `start` is the option `start_num`. -/
noncomputable def approxAdapt (start : Nat) (lb ub : ℝ) (fw : List ℝ → C (Nat × List ℝ)) : C Fe := do
  let p ← init start lb ub
  let r ← approxVec p fw
  pure r.2

/-- fourier.c:313-321 `fourier_integrate`; `space_mapping_map_inverse_deriv` (polynomials.c:264-275) is the inverse slope. -/
noncomputable def integrate (f : Fe) : C ℝ := do
  let c ← rd f.cc 0
  pure ((c * 2 * Real.pi).re * f.map.islope)

/-- polynomials.c:4473 `orth_poly_expansion_integrate_weighted`. -/
def integrateW (f : Fe) : C ℝ := do
  let c ← rd f.cc 0
  pure c.re

/-- fourier.c:329-339 `prod_eval`. -/
noncomputable def prodEval (a b : Fe) (xs : List ℝ) : C (Nat × List ℝ) := do
  let out ← forN xs.length (fun ii out => do
    let x ← rd xs ii
    let e1 ← eval a x
    let e2 ← eval b x
    wr out ii (e1 * e2)) (List.replicate xs.length 0)
  pure (0, out)

/-- polynomials.c:4123-4136 and fourier.c:349-388: `orth_poly_expansion_prod` for two Fourier expansions. The code of the approximation is dropped. -/
noncomputable def prod (eps : ℝ) (a b : Fe) : C Fe := do
  cassert (decide (|a.lb - b.lb| < eps))
  cassert (decide (|a.ub - b.ub| < eps))
  let n := a.num - 1 -- every expansion has at least one coefficient
  let p ← init (n + 1) a.lb a.ub
  if n > 0 then do
    let r ← approxVec p (prodEval a b)
    pure r.2
  else pure p

/-- polynomials.c:4566-4571 `orth_poly_expansion_inner` for two Fourier expansions. -/
noncomputable def inner (eps : ℝ) (a b : Fe) : C ℝ := do
  let p ← prod eps a b
  integrate p

/-- `if (cabs(v) < ZEROTHRESH) v = 0`. -/
noncomputable def cut (thr : ℝ) (v : ℂ) : ℂ := if ‖v‖ < thr then 0 else v

/-- fourier.c:410-415, 441-446: `y[ii] += a*x[ii]`. -/
noncomputable def addLoop (thr a : ℝ) (x : List ℂ) (n : Nat) (y : List ℂ) : C (List ℂ) :=
  forN n (fun ii y => do
    let v ← rd y ii
    let u ← rd x ii
    wr y ii (cut thr (v + a * u))) y

/-- fourier.c:418-434: enlargement of the array. `realloc` leaves the entries beyond the old ones indeterminate (zero here), all of them are set. -/
def grow (y : Fe) (n : Nat) : C (List ℂ × Nat) :=
  if n > y.nalloc then do
    let c ← forR y.num (n + 10) (fun ii c => wr c ii 0) (y.cc.take (n + 10) ++ List.replicate (n + 10 - y.cc.length) 0)
    pure (c, n + 10)
  else pure (y.cc, y.nalloc)

/-- fourier.c:435-440. -/
noncomputable def newLoop (thr a : ℝ) (x : List ℂ) (lo hi : Nat) (y : List ℂ) : C (List ℂ) :=
  forR lo hi (fun ii y => do
    let u ← rd x ii
    wr y ii (cut thr (a * u))) y

/-- fourier.c:447-456: the number of coefficients left when small ones at the end are dropped; the flag is the `break`. -/
noncomputable def trim (thr : ℝ) (c : List ℂ) (n : Nat) : C (Bool × Nat) :=
  forN (n - 1) (fun ii (s : Bool × Nat) =>
    if s.1 then pure s
    else do
      let v ← rd c (n - 1 - ii)
      if ‖v‖ > thr then pure (true, s.2) else pure (false, s.2 - 1)) (false, n)

/-- polynomials.c:4848-4860, fourier.c:405-461 `fourier_expansion_axpy`: the new `y`. -/
noncomputable def axpy (thr eps a : ℝ) (x y : Fe) : C Fe := do
  cassert (decide (|x.lb - y.lb| < eps))
  cassert (decide (|x.ub - y.ub| < eps))
  if x.num ≤ y.num then do
    let c ← addLoop thr a x.cc x.num y.cc
    pure { y with cc := c }
  else do
    let g ← grow y x.num
    let c ← newLoop thr a x.cc y.num x.num g.1
    let c ← addLoop thr a x.cc y.num c
    let t ← trim thr c x.num
    pure { y with num := t.2, nalloc := g.2, cc := c }

/-- polynomials.c:4682-4697 `orth_poly_expansion_scale`; rounding does nothing for this family (3518). -/
noncomputable def scale (a : ℝ) (f : Fe) : C Fe := do
  let c ← forN f.num (fun ii c => do
    let v ← rd c ii
    wr c ii (v * (a : ℂ))) f.cc
  pure { f with cc := c }

/-- polynomials.c:4660-4675 `orth_poly_expansion_flip_sign`. -/
noncomputable def flip (f : Fe) : C Fe := do
  let c ← forN f.num (fun ii c => do
    let v ← rd c ii
    wr c ii (v * -1)) f.cc
  pure { f with cc := c }

/-- polynomials.c:4936-4959 `orth_poly_expansion_daxpby` for Fourier expansions. -/
noncomputable def daxpby (thr eps a : ℝ) (x : Option Fe) (b : ℝ) (y : Option Fe) : C Fe :=
  match x, y with
  | some x, some y => do
    let p ← copy y
    let p ← scale b p
    axpy thr eps a x p
  | some x, none => do
    let p ← copy x
    scale a p
  | none, some y => do
    let p ← copy y
    scale b p
  | none, none => .error .exit

/-- polynomials.c:1855-1858 `orth_poly_expansion_zero`. -/
noncomputable def zero (start : Nat) (lb ub : ℝ) : C Fe := init start lb ub

/-- polynomials.c:1885-1912 `orth_poly_expansion_constant`. -/
noncomputable def constant (thr a : ℝ) (start : Nat) (lb ub : ℝ) : C Fe := do
  cassert (decide (|a| < 10 ^ 100))
  if |a| < thr then zero start lb ub
  else do
    let p ← init start lb ub
    let c ← wr p.cc 0 (a : ℂ)
    pure { p with cc := c }

/-- polynomials.c:2110-2129: the starting functions of the orthonormal basis. -/
noncomputable def basisStart (n start : Nat) (lb ub : ℝ) : C (List Fe) :=
  (List.range n).mapM fun ii => do
    let p ← init start lb ub
    if n < start then do
      let c ← wr p.cc ii 1
      pure { p with cc := c }
    else pure p

/-- polynomials.c:2134-2148: one step of the Gram-Schmidt process. `tiny` is `1e-200`. -/
noncomputable def gsStep (thr eps tiny : ℝ) (n ii : Nat) (fs : List Fe) : C (List Fe) := do
  let f ← rd fs ii
  let s ← inner eps f f
  if Real.sqrt s > tiny then do
    let f ← scale (1 / Real.sqrt s) f
    let fs ← wr fs ii f
    forR (ii + 1) (max (ii + 1) n) (fun jj fs => do
      let g ← rd fs jj
      let p ← inner eps f g
      let g ← axpy thr eps (-p) f g
      wr fs jj g) fs
  else pure fs

/-- polynomials.c:2109-2149 `orth_poly_expansion_orth_basis`, FOURIER branch. A larger `n` than `start_num` only prints a message. `sqrt` of a negative
number (NaN in C, comparing false) is zero here, with the same effect. -/
noncomputable def orthBasis (thr eps tiny : ℝ) (n start : Nat) (lb ub : ℝ) : C (List Fe) := do
  let fs ← basisStart n start lb ub
  forN n (gsStep thr eps tiny n) fs

end C3.Fourier

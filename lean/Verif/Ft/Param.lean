/-
Parameters of univariate functions, arrays of functions and trains: counting, reading, updating
(lib_funcs/functions.c, polynomials.c, linelm.c, constelm.c, kernels.c, piecewisepoly.c; lib_clinalg/qmarray.c, ft.c).
`bad` is the test `isnan || isinf`.
-/
import Verif.Ft.Alg

namespace C3.Ft
variable {K : Type} [Field K]

/-- Univariate functions as far as parameters are concerned. `poly`: polynomials.h `struct OrthPolyExpansion` (number of
polynomials, allocated length, coefficients); `elem`: linelm.h / constelm.h (number of nodes, nodes, coefficients);
`kern`: kernels.c:640-653 `struct KernelExpansion` with Gaussian kernels, each a triple (scale, width squared, centre) as in
kernels.c `params[0..2]`; `pw`: piecewise polynomials, for which all parameter routines are stubs. The polynomial family of
complex coefficients (FOURIER) is not modelled. -/
inductive PFun (K : Type)
  | poly (numPoly nalloc : Nat) (coeff : List K)
  | elem (lin : Bool) (numNodes : Nat) (nodes coeff : List K)
  | kern (nkernels : Nat) (coeff : List K) (kernels : List (K × K × K)) (inc : Bool)
  | pw

/-- `memmove(dst + off, src, n * sizeof(double))` between different arrays. -/
def movTo (n : Nat) (src : List K) (soff : Nat) (dst : List K) (doff : Nat) : C (List K) :=
  forN n (fun i dst => do
    let v ← rd src (soff + i)
    wr dst (doff + i) v) dst

/-- `generic_function_get_num_params`: polynomials.c:1505-1509, linelm.c:524-528, constelm.c:468-472,
kernels.c:1460-1469, piecewisepoly.c:2736-2741. -/
def numParams : PFun K → Nat
  | .poly n _ _ => n
  | .elem _ n _ _ => n
  | .kern n _ _ inc => if inc then 2 * n else n
  | .pw => 0

/-- functions.c:954-961 `generic_function_get_params(gf, param + off)`: polynomials.c:1706-1711, linelm.c:538-543,
constelm.c:482-487, kernels.c:1474-1487, piecewisepoly.c:2858-2864. Result: number of parameters, array. -/
def getParams (f : PFun K) (param : List K) (off : Nat) : C (Nat × List K) :=
  match f with
  | .poly n _ c => do
    let p ← movTo n c 0 param off
    pure (n, p)
  | .elem _ n _ c => do
    let p ← movTo n c 0 param off
    pure (n, p)
  | .kern n c ks inc => do
    let p ← movTo n c 0 param off
    if inc then do
      let p ← forN n (fun ii p => do
        let k ← rd ks ii
        wr p (off + (ii + n)) k.2.2) p
      pure (2 * n, p)
    else pure (n, p)
  | .pw => pure (0, param)

/-- polynomials.c:1734-1765 `orth_poly_expansion_update_params`. -/
def polyUpdate (nold nalloc : Nat) (c : List K) (n : Nat) (param : List K) (off : Nat) : C (PFun K) :=
  if n ≤ nold then do
    let c ← movTo n param off c 0
    let c ← forR n nold (fun ii c => wr c ii 0) c
    pure (.poly n nalloc c)
  else if n ≤ nalloc then do
    let c ← movTo n param off c 0
    pure (.poly n nalloc c)
  else do
    let c ← movTo n param off (List.replicate n 0) 0
    pure (.poly n n c)

/-- linelm.c:570-580, constelm.c:514-524. -/
def elemUpdate (lin : Bool) (num : Nat) (nodes c : List K) (n : Nat) (param : List K) (off : Nat) : C (PFun K) := do
  cassert (decide (num = n))
  let c ← movTo n param off c 0
  pure (.elem lin num nodes c)

/-- kernels.c:919-940 `kernel_expansion_update_params`; the assertion in the last branch is an assignment
`nkernels = dim/2`. -/
def kernUpdate (num : Nat) (c : List K) (ks : List (K × K × K)) (inc : Bool) (n : Nat) (param : List K) (off : Nat) :
    C (PFun K) :=
  if inc = false then do
    cassert (decide (num = n))
    let c ← movTo n param off c 0
    pure (.kern num c ks inc)
  else if n = num then do
    let c ← movTo n param off c 0
    pure (.kern num c ks inc)
  else do
    cassert (decide (n / 2 ≠ 0))
    let c ← movTo (n / 2) param off c 0
    let ks ← forN (n / 2) (fun ii ks => do
      let k ← rd ks ii
      let v ← rd param (off + (ii + n / 2))
      wr ks ii (k.1, k.2.1, v)) ks
    pure (.kern (n / 2) c ks inc)

/-- functions.c:995-1004: NaN or infinity ends the program. -/
def scanBad (bad : K → Bool) (n : Nat) (param : List K) (off : Nat) : C Unit :=
  forN n (fun ii _ => do
    let v ← rd param (off + ii)
    if bad v then .error .exit else pure ()) ()

/-- functions.c:1007-1008: the class' own routine. -/
def updateCls (f : PFun K) (n : Nat) (param : List K) (off : Nat) : C (PFun K) :=
  match f with
  | .poly m a c => polyUpdate m a c n param off
  | .elem l m x c => elemUpdate l m x c n param off
  | .kern m c ks inc => kernUpdate m c ks inc n param off
  | .pw => pure .pw

/-- functions.c:991-1010 `generic_function_update_params(f, n, param + off)`. The return value is not used by callers. -/
def updateParams (bad : K → Bool) (f : PFun K) (n : Nat) (param : List K) (off : Nat) : C (PFun K) := do
  scanBad bad n param off
  updateCls f n param off

/-- qmarray.c:3417-3438 `qmarray_get_nparams`: total, and the largest number in one function. -/
def qmaNparams (Q : Qma (PFun K)) : C (Nat × Nat) :=
  forN (Q.nrows * Q.ncols) (fun ii s => do
    let f ← rd Q.funcs ii
    pure (s.1 + numParams f, if numParams f > s.2 then numParams f else s.2)) (0, 0)

/-- qmarray.c:3448-3465 `qmarray_get_params(qma, param + off)` for a non-NULL array: number of parameters, array. -/
def qmaGetParams (Q : Qma (PFun K)) (param : List K) (off : Nat) : C (Nat × List K) :=
  forN (Q.nrows * Q.ncols) (fun ii s => do
    let f ← rd Q.funcs ii
    let r ← getParams f s.2 (off + s.1)
    pure (s.1 + r.1, r.2)) (0, param)

/-- qmarray.c:3476-3490 `qmarray_uni_update_params`. -/
def qmaUniUpdate (bad : K → Bool) (Q : Qma (PFun K)) (row col n : Nat) (param : List K) : C (Qma (PFun K)) := do
  let f ← rd Q.funcs (col * Q.nrows + row)
  if numParams f ≠ n then .error .exit
  else do
    let f ← updateParams bad f n param 0
    let fs ← wr Q.funcs (col * Q.nrows + row) f
    pure { Q with funcs := fs }

/-- qmarray.c:3513-3531 `qmarray_update_params(qma, n, param + off)`: the count is checked after the update. -/
def qmaUpdate (bad : K → Bool) (Q : Qma (PFun K)) (n : Nat) (param : List K) (off : Nat) : C (Qma (PFun K)) := do
  let s ← forN (Q.nrows * Q.ncols) (fun ii s => do
    let f ← rd s.1 ii
    let g ← updateParams bad f (numParams f) param (off + s.2)
    let fs ← wr s.1 ii g
    pure (fs, s.2 + numParams f)) (Q.funcs, 0)
  if s.2 ≠ n then .error .exit else pure { Q with funcs := s.1 }

/-- ft.c:860-873 `function_train_get_nparams`. -/
def ftNparams (ft : FT K (PFun K)) : C Nat :=
  forN ft.dim (fun ii tot => do
    let Q ← rd ft.cores ii
    let r ← qmaNparams Q
    pure (tot + r.1)) 0

/-- ft.c:908-918 `function_train_get_params`: number of parameters, array. -/
def ftGetParams (ft : FT K (PFun K)) (param : List K) : C (Nat × List K) :=
  forN ft.dim (fun ii s => do
    let Q ← rd ft.cores ii
    let r ← qmaGetParams Q s.2 s.1
    pure (s.1 + r.1, r.2)) (0, param)

/-- ft.c:936-942 `function_train_core_update_params`. -/
def ftCoreUpdate (bad : K → Bool) (ft : FT K (PFun K)) (core n : Nat) (param : List K) : C (FT K (PFun K)) := do
  let Q ← rd ft.cores core
  let Q ← qmaUpdate bad Q n param 0
  let cs ← wr ft.cores core Q
  pure { ft with cores := cs }

/-- ft.c:947-957 `function_train_update_params`: number of parameters, train. -/
def ftUpdate (bad : K → Bool) (ft : FT K (PFun K)) (param : List K) : C (Nat × FT K (PFun K)) := do
  let s ← forN ft.dim (fun ii s => do
    let Q ← rd s.1 ii
    let r ← qmaNparams Q
    let Q' ← qmaUpdate bad Q r.1 param s.2
    let cs ← wr s.1 ii Q'
    pure (cs, s.2 + r.1)) (ft.cores, 0)
  pure (s.2, { ft with cores := s.1 })

end C3.Ft

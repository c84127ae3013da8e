/-
Kernels and kernel expansions (c3/lib_funcs/kernels.c).

Real numbers are exact; `exp`, `sqrt`, `erf` and `M_PI` are the mathematical functions and number. A quotient with zero denominator (infinity or NaN
in the code) is `Err.ub`; the square root of a negative number (NaN) is zero here and always followed by a division by it, i.e. `Err.ub`. A NULL pointer
in the array of kernels is `none`. `big` is `DBL_MAX`. Printing, failing `malloc` and routines that only print "not implemented" are left out, and so
is `kernel_expansion_linear` (least squares by LAPACK). Serialization is in `Verif.Serial`.
-/
import Verif.Core.Sum
import Verif.Lin.Model
import Mathlib.Analysis.SpecialFunctions.Trigonometric.Basic
import Mathlib.Analysis.SpecialFunctions.Sqrt
import Mathlib.MeasureTheory.Integral.IntervalIntegral.Basic

namespace C3.Kern

open C3.Lin (dv)

/-- The error function of the C library. -/
noncomputable def erf (x : ℝ) : ℝ := 2 / Real.sqrt Real.pi * ∫ t in (0 : ℝ)..x, Real.exp (-t ^ 2)

/-- kernels.c:76-82 `gauss_kernel_eval`. -/
noncomputable def gaussEval (scale w c x : ℝ) : C ℝ := do
  let dx := x - c
  let inner ← dv (-dx * dx) w
  pure (scale * Real.exp inner)

/-- kernels.c:89-99 `gauss_kernel_deriv`. -/
noncomputable def gaussDeriv (scale w c x : ℝ) : C ℝ := do
  let dx := x - c
  let d ← dv (-dx) w
  let inner := dx * d
  let dinner := 2 * d
  pure (scale * Real.exp inner * dinner)

/-- kernels.c:104-108 `gauss_kernel_integrate`. -/
noncomputable def gaussInt (scale w c lb ub : ℝ) : C ℝ := do
  let width := Real.sqrt w
  let a ← dv (c - lb) width
  let b ← dv (c - ub) width
  pure (1 / 2 * Real.sqrt Real.pi * width * scale * (erf a - erf b))

/-- kernels.c:113-139 `gauss_kernel_inner`. -/
noncomputable def gaussInner (s1 w1 c1 s2 w2 c2 lb ub : ℝ) : C ℝ := do
  let width1 := Real.sqrt w1
  let width2 := Real.sqrt w2
  let wsum := w1 + w2
  let sws := Real.sqrt wsum
  let pre := Real.sqrt Real.pi * width1 * width2 * s1 * s2
  let den := 2 * sws
  let cdiff := c1 - c2
  let e ← dv (-cdiff * cdiff) wsum
  let pre := pre * Real.exp e
  let num := c1 * w2 + w1 * c2
  let m1 ← dv (num - lb * wsum) (width1 * width2 * sws)
  let m2 ← dv (num - ub * wsum) (width1 * width2 * sws)
  let q ← dv pre den
  pure (q * (erf m1 - erf m2))

/-- kernels.c:142 `enum KernelType`. -/
inductive KT | gauss | none
  deriving DecidableEq

/-- kernels.c:143-148 `struct Kernel`. -/
structure Kern where
  type : KT
  nparams : Nat
  params : List ℝ

/-- kernels.c:155-171 `same_kernel`; `tol` is `1e-15`. The flag is the `break`. -/
noncomputable def sameKernel (tol : ℝ) (x y : Kern) : C Bool :=
  if x.type ≠ y.type then pure false
  else if x.nparams ≠ y.nparams then pure false
  else forN x.nparams (fun ii ret =>
    if ret then do
      let a ← rd x.params ii
      let b ← rd y.params ii
      pure (decide (¬|a - b| > tol))
    else pure false) true

/-- kernels.c:249-259 `kernel_copy` (of a kernel that is not NULL) with the allocation 176-188. -/
def kcopy (k : Kern) : C Kern := do
  let p ← forN k.nparams (fun i d => do
    let v ← rd k.params i
    wr d i v) (List.replicate k.nparams 0)
  pure ⟨k.type, k.nparams, p⟩

/-- kernels.c:249-259 `kernel_copy`. -/
def kcopyOpt : Option Kern → C (Option Kern)
  | none => pure none
  | some k => do
    let c ← kcopy k
    pure (some c)

/-- kernels.c:276-284 `kernel_gaussian`. -/
def gaussian (scale width center : ℝ) : Kern := ⟨.gauss, 3, [scale, width * width, center]⟩

/-- kernels.c:297-307 `kernel_update_center`. -/
def updateCenter (k : Kern) (c : ℝ) : C Kern :=
  match k.type with
  | .gauss => do
    let p ← wr k.params 2 c
    pure { k with params := p }
  | .none => .error .exit

/-- kernels.c:312-324 `kernel_get_center`. -/
def getCenter (k : Kern) : C ℝ :=
  match k.type with
  | .gauss => rd k.params 2
  | .none => .error .exit

/-- The three parameters of a Gaussian kernel; other kernels end the program. -/
def par (k : Kern) : C (ℝ × ℝ × ℝ) :=
  match k.type with
  | .gauss => do
    let a ← rd k.params 0
    let b ← rd k.params 1
    let c ← rd k.params 2
    pure (a, b, c)
  | .none => .error .exit

/-- kernels.c:329-342 `kernel_eval`. -/
noncomputable def kEval (k : Kern) (x : ℝ) : C ℝ := do
  let p ← par k
  gaussEval p.1 p.2.1 p.2.2 x

/-- kernels.c:347-359 `kernel_deriv`. -/
noncomputable def kDeriv (k : Kern) (x : ℝ) : C ℝ := do
  let p ← par k
  gaussDeriv p.1 p.2.1 p.2.2 x

/-- kernels.c:364-376 `kernel_grad_center`: the derivative with centre and point exchanged. -/
noncomputable def kGradCenter (k : Kern) (x : ℝ) : C ℝ := do
  let p ← par k
  gaussDeriv p.1 p.2.1 x p.2.2

/-- kernels.c:381-393 `kernel_integrate`. -/
noncomputable def kInt (k : Kern) (lb ub : ℝ) : C ℝ := do
  let p ← par k
  gaussInt p.1 p.2.1 p.2.2 lb ub

/-- kernels.c:399-412 `kernel_inner`. -/
noncomputable def kInner (k1 k2 : Kern) (lb ub : ℝ) : C ℝ := do
  let p ← par k1
  let q ← par k2
  gaussInner p.1 p.2.1 p.2.2 q.1 q.2.1 q.2.2 lb ub

/-! ### Options -/

/-- kernels.c:445-465 `struct KernelApproxOpts`; the pointers are NULL until set (an empty list, whose reading is out of bounds here). -/
structure Opts where
  nnodes : Nat
  centers : List ℝ
  type : KT
  other : List ℝ
  nreg : Nat
  pracLb : ℝ
  pracUb : ℝ
  lb : ℝ
  ub : ℝ
  adapt : Int

/-- kernels.c:470-494 `kernel_approx_opts_alloc`. -/
def optsAlloc (big : ℝ) : Opts := ⟨0, [], .none, [], 0, -big, big, -big, big, 0⟩

/-- kernels.c:511-542 `kernel_approx_opts_gauss`: `ncenters` is the length announced by the caller. -/
noncomputable def optsGauss (big : ℝ) (ncenters : Nat) (centers : List ℝ) (scale width : ℝ) : C Opts := do
  let cs ← forN ncenters (fun i d => do
    let v ← rd centers i
    wr d i v) (List.replicate ncenters 0)
  let b ← forN ncenters (fun ii (s : ℝ × ℝ) => do
    let v ← rd centers ii
    pure (if v < s.1 then v else s.1, if v > s.2 then v else s.2)) (big, -big)
  pure { optsAlloc big with
    nnodes := ncenters, type := .gauss, centers := cs, other := [scale, width], nreg := ncenters, pracLb := b.1, pracUb := b.2 }

/-- kernels.c:548-555 `kernel_approx_opts_set_center_adapt`. -/
def setAdapt (o : Opts) (a : Int) : Opts := { o with adapt := a, nreg := if a = 1 then 2 * o.nnodes else o.nreg }

/-- kernels.c:560-569 `kernel_approx_opts_linear_p`. -/
def linearp (o : Opts) : Bool := o.adapt ≠ 1

/-- array.c:271-281 `linspace`. With `N = 0` the loop runs to the end of the memory. -/
noncomputable def linspace (lo hi : ℝ) (N : Nat) : C (List ℝ) :=
  if N = 0 then .error .oob
  else do
    let a ← forN (N - 1) (fun ii a => wr a ii (ii * ((hi - lo) / (N - 1 : ℕ)) + lo)) (List.replicate N 0)
    wr a (N - 1) hi

/-- kernels.c:584-604 `kernel_approx_opts_set_nparams`, the number of centres. -/
def nnodesOf (o : Opts) (nparam : Nat) : C Nat :=
  if o.adapt = 0 then pure nparam
  else if nparam % 2 ≠ 0 then .error .exit
  else pure (nparam / 2)

/-- kernels.c:584-604 `kernel_approx_opts_set_nparams`. -/
noncomputable def setNparams (big : ℝ) (o : Opts) (nparam : Nat) : C Opts := do
  let n ← nnodesOf o nparam
  cassert (decide (o.pracLb < big))
  cassert (decide (o.pracUb > -big))
  let c ← linspace o.pracLb o.pracUb n
  pure { o with nreg := nparam, nnodes := n, centers := c }

/-- kernels.c:610-614 `kernel_approx_opts_set_lb`. -/
def setLb (o : Opts) (lb : ℝ) : Opts := { o with lb := lb, pracLb := lb }

/-- kernels.c:627-631 `kernel_approx_opts_set_ub`. -/
def setUb (o : Opts) (ub : ℝ) : Opts := { o with ub := ub, pracUb := ub }

/-! ### Expansions -/

/-- kernels.c:641-653 `struct KernelExpansion`; `incl` is `include_kernel_param`. -/
structure KE where
  nalloc : Nat
  nk : Nat
  coeff : List ℝ
  kernels : List (Option Kern)
  lb : ℝ
  ub : ℝ
  incl : Nat

/-- kernels.c:676-694 `kernel_expansion_alloc`. -/
def alloc (big : ℝ) (nalloc : Nat) : C KE := do
  cassert (decide (nalloc > 0))
  pure ⟨nalloc, 0, List.replicate nalloc 0, List.replicate nalloc none, -big, big, 0⟩

/-- The `n` kernels of an array copied into the beginning of an array of `m` NULL pointers. -/
def copyKernels (n m : Nat) (src : List (Option Kern)) : C (List (Option Kern)) :=
  forN n (fun ii d => do
    let k ← rd src ii
    let c ← kcopyOpt k
    wr d ii c) (List.replicate m none)

/-- kernels.c:781-797 `kernel_expansion_copy` (of an expansion that is not NULL). -/
def copy (big : ℝ) (ke : KE) : C KE := do
  let out ← alloc big ke.nalloc
  let c ← forN ke.nalloc (fun ii d => do
    let v ← rd ke.coeff ii
    wr d ii v) out.coeff
  let k ← copyKernels ke.nalloc ke.nalloc ke.kernels
  pure { out with nk := ke.nk, coeff := c, kernels := k, lb := ke.lb, ub := ke.ub, incl := ke.incl }

/-- kernels.c:839-867: twice the space. -/
def grow (ke : KE) : C KE := do
  let c ← forN ke.nalloc (fun ii d => do
    let v ← rd ke.coeff ii
    wr d ii v) (List.replicate (2 * ke.nalloc) 0)
  let karr ← copyKernels ke.nalloc ke.nalloc ke.kernels
  let k ← copyKernels ke.nalloc (2 * ke.nalloc) karr
  pure { ke with coeff := c, kernels := k, nalloc := 2 * ke.nalloc }

/-- kernels.c:871-876. -/
def put (ke : KE) (weight : ℝ) (k : Kern) : C KE := do
  let c ← wr ke.coeff ke.nk weight
  let k ← kcopy k
  let ks ← wr ke.kernels ke.nk (some k)
  pure { ke with coeff := c, kernels := ks, nk := ke.nk + 1 }

/-- kernels.c:833-878 `kernel_expansion_add_kernel`. The recursive call takes the other branch unless there is no space at all, when it never ends. -/
def add (ke : KE) (weight : ℝ) (k : Kern) : C KE :=
  if ke.nk = ke.nalloc then
    if ke.nalloc = 0 then .error .diverge
    else do
      let ke ← grow ke
      put ke weight k
  else put ke weight k

/-- kernels.c:888-914 `kernel_expansion_init`, the body of the loop. -/
def initStep (o : Opts) (ii : Nat) (ke : KE) : C KE :=
  match o.type with
  | .gauss => do
    let s ← rd o.other 0
    let w ← rd o.other 1
    let c ← rd o.centers ii
    add ke 0 (gaussian s w c)
  | .none => .error .exit

/-- kernels.c:888-914 `kernel_expansion_init`. -/
def init (big : ℝ) (o : Opts) : C KE := do
  let ke ← alloc big 1
  let ke ← forN o.nnodes (initStep o) ke
  pure { ke with lb := o.lb, ub := o.ub, incl := (o.adapt % 2 ^ 64).toNat }

/-- A pointer to a kernel that is used. -/
def kat (ks : List (Option Kern)) (ii : Nat) : C Kern := do
  let k ← rd ks ii
  match k with
  | none => .error .null
  | some k => pure k

/-- `memmove(coeff,param,n*sizeof(double))`. -/
def setCoeff (n : Nat) (param coeff : List ℝ) : C (List ℝ) :=
  forN n (fun i d => do
    let v ← rd param i
    wr d i v) coeff

/-- kernels.c:919-940 `kernel_expansion_update_params`; line 931 assigns to `nkernels` within the assertion. -/
def updateParams (ke : KE) (dim : Nat) (param : List ℝ) : C KE :=
  if ke.incl = 0 then do
    cassert (decide (ke.nk = dim))
    let c ← setCoeff dim param ke.coeff
    pure { ke with coeff := c }
  else if dim = ke.nk then do
    let c ← setCoeff dim param ke.coeff
    pure { ke with coeff := c }
  else do
    cassert (decide (dim / 2 ≠ 0))
    let c ← setCoeff (dim / 2) param ke.coeff
    let ks ← forN (dim / 2) (fun ii ks => do
      let k ← kat ks ii
      let v ← rd param (ii + dim / 2)
      let k ← updateCenter k v
      wr ks ii (some k)) ke.kernels
    pure { ke with nk := dim / 2, coeff := c, kernels := ks }

/-- kernels.c:953-964 `kernel_expansion_create_with_params`. -/
def createWith (big : ℝ) (o : Opts) (dim : Nat) (param : List ℝ) : C KE := do
  cassert (decide (o.nreg = dim))
  let ke ← init big o
  updateParams ke dim param

/-- kernels.c:991-1004 `kernel_expansion_zero`. -/
def zero (big : ℝ) (o : Opts) : C KE := do
  let ke ← init big o
  let c ← forN ke.nk (fun ii c => wr c ii 0) ke.coeff
  pure { ke with coeff := c }

/-- kernels.c:1113-1121 `kernel_expansion_eval`. -/
noncomputable def eval (ke : KE) (x : ℝ) : C ℝ :=
  forN ke.nk (fun ii out => do
    let c ← rd ke.coeff ii
    let k ← kat ke.kernels ii
    let v ← kEval k x
    pure (out + c * v)) 0

/-- kernels.c:1127-1141 `check_same_nodes_kernels`. -/
noncomputable def checkSame (tol : ℝ) (x y : KE) : C Bool :=
  if x.nk ≠ y.nk then pure false
  else forN x.nk (fun ii ret =>
    if ret then do
      let a ← kat x.kernels ii
      let b ← kat y.kernels ii
      sameKernel tol a b
    else pure false) true

/-- kernels.c:1159-1165 `kernel_expansion_evalN`. -/
noncomputable def evalN (ke : KE) (N : Nat) (x : List ℝ) (incx : Nat) (y : List ℝ) (incy : Nat) : C (List ℝ) :=
  forN N (fun ii y => do
    let v ← rd x (ii * incx)
    let e ← eval ke v
    wr y (ii * incy) e) y

/-- kernels.c:1200-1209 `kernel_expansion_deriv_eval`. -/
noncomputable def derivEval (ke : KE) (x : ℝ) : C ℝ :=
  forN ke.nk (fun ii out => do
    let c ← rd ke.coeff ii
    let k ← kat ke.kernels ii
    let v ← kDeriv k x
    pure (out + c * v)) 0

/-- kernels.c:1214-1230 `kernel_expansion_axpy`: the new `y`. -/
noncomputable def axpy (tol a : ℝ) (x y : KE) : C KE := do
  let s ← checkSame tol x y
  if s then do
    let c ← forN y.nk (fun ii c => do
      let v ← rd c ii
      let u ← rd x.coeff ii
      wr c ii (v + a * u)) y.coeff
    pure { y with coeff := c }
  else .error .exit

/-- kernels.c:1235-1242 `kernel_expansion_integrate` (and `kernel_expansion_integrate_weighted`). -/
noncomputable def integrate (ke : KE) : C ℝ :=
  forN ke.nk (fun ii out => do
    let c ← rd ke.coeff ii
    let k ← kat ke.kernels ii
    let v ← kInt k ke.lb ke.ub
    pure (out + c * v)) 0

/-- kernels.c:1283-1307 `kernel_expansion_inner`. -/
noncomputable def inner (a b : KE) : C ℝ :=
  let lb := if a.lb < b.lb then b.lb else a.lb
  let ub := if a.ub > b.ub then b.ub else a.ub
  forN a.nk (fun ii out =>
    forN b.nk (fun jj out => do
      let c ← rd a.coeff ii
      let d ← rd b.coeff jj
      let k ← kat a.kernels ii
      let l ← kat b.kernels jj
      let v ← kInner k l lb ub
      pure (out + c * d * v)) out) 0

/-- kernels.c:1317-1323 `kernel_expansion_scale`. -/
def scale (a : ℝ) (ke : KE) : C KE := do
  let c ← forN ke.nk (fun ii c => do
    let v ← rd c ii
    wr c ii (v * a)) ke.coeff
  pure { ke with coeff := c }

/-- kernels.c:1326-1329 `kernel_expansion_flip_sign`. -/
def flip (ke : KE) : C KE := scale (-1) ke

/-- kernels.c:1343-1363 `kernel_expansion_param_grad_eval`. -/
noncomputable def paramGrad (ke : KE) (nx : Nat) (x grad : List ℝ) : C (List ℝ) :=
  let np := if ke.incl = 1 then 2 * ke.nk else ke.nk
  forN nx (fun ii g => do
    let g ← forN ke.nk (fun jj g => do
      let k ← kat ke.kernels jj
      let v ← rd x ii
      let e ← kEval k v
      wr g (ii * np + jj) e) g
    if ke.incl = 1 then
      forN ke.nk (fun jj g => do
        let c ← rd ke.coeff jj
        let k ← kat ke.kernels jj
        let v ← rd x ii
        let e ← kGradCenter k v
        wr g (ii * np + jj + ke.nk) (c * e)) g
    else pure g) grad

/-- kernels.c:1376-1397 `kernel_expansion_param_grad_eval2`: value and gradient. -/
noncomputable def paramGrad2 (ke : KE) (x : ℝ) (grad : List ℝ) : C (ℝ × List ℝ) := do
  let s ← forN ke.nk (fun jj (s : ℝ × List ℝ) => do
    let k ← kat ke.kernels jj
    let e ← kEval k x
    let g ← wr s.2 jj e
    let v ← rd g jj
    let c ← rd ke.coeff jj
    pure (s.1 + v * c, g)) (0, grad)
  if ke.incl = 1 then do
    let g ← forN ke.nk (fun jj g => do
      let c ← rd ke.coeff jj
      let k ← kat ke.kernels jj
      let e ← kGradCenter k x
      wr g (jj + ke.nk) (c * e)) s.2
    pure (s.1, g)
  else pure s

/-- kernels.c:1434-1454 `kernel_expansion_squared_norm_param_grad`. -/
noncomputable def sqNormGrad (ke : KE) (sc : ℝ) (grad : List ℝ) : C (List ℝ) := do
  cassert (decide (ke.incl ≠ 1))
  forN ke.nk (fun ii g => do
    let g1 ← forN ke.nk (fun jj s => do
      let c ← rd ke.coeff jj
      let k ← kat ke.kernels ii
      let l ← kat ke.kernels jj
      let v ← kInner k l ke.lb ke.ub
      pure (s + c * v)) 0
    let v ← rd g ii
    wr g ii (v + 2 * sc * g1)) grad

/-- kernels.c:1460-1469 `kernel_expansion_get_num_params`. -/
def numParams (ke : KE) : Nat := if ke.incl = 0 then ke.nk else 2 * ke.nk

/-- kernels.c:1474-1487 `kernel_expansion_get_params`: the number of parameters and the array. -/
def getParams (ke : KE) (param : List ℝ) : C (Nat × List ℝ) := do
  let p ← forN ke.nk (fun i d => do
    let v ← rd ke.coeff i
    wr d i v) param
  if ke.incl = 0 then pure (ke.nk, p)
  else do
    let p ← forN ke.nk (fun ii p => do
      let k ← kat ke.kernels ii
      let c ← getCenter k
      wr p (ii + ke.nk) c) p
    pure (2 * ke.nk, p)

/-- kernels.c:1575-1611: one projection; the `while` loop is left after its first pass. -/
noncomputable def project (ptol tol : ℝ) (f g : KE) : C KE := do
  let p ← inner f g
  if |p| > ptol then axpy tol (-p) f g else pure g

/-- kernels.c:1550-1613: one step of the Gram-Schmidt process. `isnan` and `isinf` have no counterpart in exact arithmetic. -/
noncomputable def gsStep (ptol tol : ℝ) (n ii : Nat) (fs : List KE) : C (List KE) := do
  let f ← rd fs ii
  let s ← inner f f
  if s < 0 then .error .exit
  else do
    let r ← dv 1 (Real.sqrt s)
    let f ← scale r f
    let fs ← wr fs ii f
    forR (ii + 1) (max (ii + 1) n) (fun jj fs => do
      let g ← rd fs jj
      let g ← project ptol tol f g
      wr fs jj g) fs

/-- kernels.c:1541-1547: the starting functions. -/
def basisStart (big : ℝ) (n : Nat) (o : Opts) : C (List KE) :=
  (List.range n).mapM fun ii => do
    let ke ← init big o
    let c ← wr ke.coeff ii 1
    pure { ke with coeff := c }

/-- kernels.c:1536-1614 `kernel_expansion_orth_basis`; `ptol` is `1e-14`, `tol` is `1e-15`. -/
noncomputable def orthBasis (big ptol tol : ℝ) (n : Nat) (o : Opts) : C (List KE) := do
  cassert (decide (o.nnodes ≥ n))
  let fs ← basisStart big n o
  forN n (gsStep ptol tol n) fs

/-- kernels.c:1648-1670 `kernel_expansion_absmax`: value and position. `nodes` is NULL or a vector of nodes. -/
noncomputable def absmax (ke : KE) (nodes : Option (List ℝ)) : C (ℝ × ℝ) :=
  match nodes with
  | none => .error .exit
  | some nd => do
    let x0 ← rd nd 0
    let v ← eval ke x0
    forN nd.length (fun ii (s : ℝ × ℝ) => do
      let x ← rd nd ii
      let v ← eval ke x
      pure (if |v| > s.1 then (|v|, x) else s)) (|v|, x0)

end C3.Kern

/-
The optimizer object `struct c3Opt` of c3/lib_optimization/optimization.c: its two constructors, `c3opt_set_nvars`, the setters,
`c3opt_copy`, the recording of the trace of a run and its printing, and `c3opt_check_deriv`. A pointer is an `Option` (`none` = NULL),
a buffer is a list; a field that the constructors leave uninitialised is an `Option` whose `none` means "no value was ever stored".
The literals 0.4, 1e-8, ... are the exact decimal fractions in a field, `DBL_MAX` is an argument. `malloc` never fails. Memory leaks
(a buffer overwritten without `free`) are not modelled.
-/
import Verif.Core.Mem
import Mathlib.Algebra.Field.Basic
import Mathlib.Algebra.Order.Field.Basic

namespace C3.Oo

/-- optimization.h:47 `enum c3opt_ls_alg`. -/
inductive LAlg | backtrack | strongwolfe | weakwolfe
  deriving DecidableEq

/-- optimization.h:49 `enum c3opt_alg`. -/
inductive Alg | bfgs | lbfgs | batchgrad | bruteforce | sgd
  deriving DecidableEq

/-- optimization.c:57-66 `struct c3LS`. -/
structure LS (K : Type) where
  alg : LAlg
  alpha : K
  beta : K
  maxiter : Nat
  initial : Int
  deriving DecidableEq

/-- optimization.c:181-192 `struct c3SGD`. -/
structure SGD (K : Type) where
  vfrac : K
  rate : K
  decay : K
  nsamples : Nat
  momentum : Int
  nepochs : Nat
  deriving DecidableEq

/-- optimization.c:237-287 `struct c3Opt`. `fsgd`, `nlocs` and `prev` are not initialised by the constructors (`nlocs` is for brute
force): their outer `none` is the uninitialised state. -/
structure Opt (K F G A : Type) where
  alg : Alg
  d : Nat
  f : Option F
  fsgd : Option (Option G)
  farg : Option A
  lb : Option (List K)
  ub : Option (List K)
  grad : Int
  ls : Option (LS K)
  maxiter : Nat
  relxtol : K
  absxtol : K
  relftol : K
  gtol : K
  nlocs : Option Nat
  ws : Option (List K)
  verbose : Int
  nevals : Nat
  ngvals : Nat
  niters : Nat
  prev : Option K
  nvec : Nat
  scale : Int
  sgd : Option (SGD K)
  stGrad : Int
  stFunc : Int
  stX : Int
  sGrad : Option (List K)
  sFunc : Option (List K)
  sX : Option (List K)

variable {K F G A : Type}

/-- `memmove` of `n` numbers. Moving nothing is allowed for every pointer (also NULL, which the C standard does not promise). -/
def move (dst src : Option (List K)) (n : Nat) : C (Option (List K)) :=
  if n = 0 then .ok dst else
  match dst, src with
  | none, _ => .error .null
  | some _, none => .error .null
  | some a, some b =>
    if n ≤ a.length then
      if n ≤ b.length then .ok (some (b.take n ++ a.drop n)) else .error .oob
    else .error .oob

section Field
variable [Field K]

/-- optimization.c:71-101 `c3ls_alloc`. -/
def lsAlloc (alg : LAlg) (init : Int) : LS K :=
  match alg with
  | .backtrack => ⟨alg, 4 / 10, 9 / 10, 500, init⟩
  | .strongwolfe => ⟨alg, 1 / 10 ^ 4, 9 / 10, 500, init⟩
  | .weakwolfe => ⟨alg, 3 / 10, 9 / 10, 500, init⟩

/-- optimization.c:106-114 `c3ls_copy`. -/
def lsCopy (o : LS K) : LS K :=
  let n : LS K := lsAlloc o.alg o.initial
  { n with alpha := o.alpha, beta := o.beta, maxiter := o.maxiter }

/-- optimization.c:194-213 `c3sgd_alloc`. -/
def sgdAlloc : SGD K := ⟨1 / 10, 1 / 10 ^ 3, 993 / 1000, 0, 1, 10⟩

/-- optimization.c:215-226 `c3sgd_copy`. -/
def sgdCopy (o : SGD K) : SGD K :=
  let n : SGD K := sgdAlloc
  { n with vfrac := o.vfrac, rate := o.rate, decay := o.decay, nsamples := o.nsamples, momentum := o.momentum,
           nepochs := o.nepochs }

/-- `opt->grad` of the branches 320-349, 391-412, 478-507: only brute force uses no gradient. -/
def algGrad : Alg → Int
  | .bruteforce => 0
  | _ => 1

/-- `opt->ls` in `c3opt_create`, 320-349. -/
def createLs : Alg → Option (LS K)
  | .bfgs => some (lsAlloc .weakwolfe 0)
  | .lbfgs => some (lsAlloc .weakwolfe 0)
  | .sgd => none
  | .batchgrad => some (lsAlloc .strongwolfe 0)
  | .bruteforce => none

/-- `opt->ls` in `c3opt_alloc`, 473-507. -/
def allocLs : Alg → Option (LS K)
  | .bfgs => some (lsAlloc .weakwolfe 0)
  | .lbfgs => some (lsAlloc .weakwolfe 0)
  | .batchgrad => some (lsAlloc .weakwolfe 0)
  | .sgd => none
  | .bruteforce => none

/-- `opt->absxtol`, 313-316 and 465-468. -/
def algXtol : Alg → K
  | .sgd => 1 / 10 ^ 20
  | _ => 1 / 10 ^ 8

/-- `opt->nlocs` is initialised only in the last branch, 344 and 502. -/
def algNlocs : Alg → Option Nat
  | .bruteforce => some 0
  | _ => none

/-- `opt->sgd`, 319-336 and 472-499. -/
def algSgd : Alg → Option (SGD K)
  | .sgd => some sgdAlloc
  | _ => none

/-- The zeroed workspace for `d` variables, 389-412 and 473-507. -/
def algWs (d : Nat) : Alg → Option (List K)
  | .bfgs => some (List.replicate (4 * d) 0)
  | .lbfgs => some (List.replicate (4 * d) 0)
  | .sgd => some (List.replicate (4 * d) 0)
  | .batchgrad => some (List.replicate (2 * d) 0)
  | .bruteforce => none

/-- optimization.c:294-367 `c3opt_create`. -/
def create (alg : Alg) : Opt K F G A :=
  { alg := alg, d := 0, f := none, fsgd := none, farg := none, lb := none, ub := none,
    grad := algGrad alg, ls := createLs alg, maxiter := 1000, relxtol := 1 / 10 ^ 8, absxtol := algXtol alg,
    relftol := 1 / 10 ^ 8, gtol := 1 / 10 ^ 12, nlocs := algNlocs alg,
    ws := none, verbose := 0, nevals := 0, ngvals := 0, niters := 0, prev := none, nvec := 40, scale := 0,
    sgd := algSgd alg, stGrad := 0, stFunc := 0, stX := 0, sGrad := none, sFunc := none, sX := none }

/-- optimization.c:441-523 `c3opt_alloc`. -/
def alloc (alg : Alg) (d : Nat) : Opt K F G A :=
  { alg := alg, d := d, f := none, fsgd := none, farg := none,
    lb := some (List.replicate d (-(10 ^ 30))), ub := some (List.replicate d (10 ^ 30)),
    grad := algGrad alg, ls := allocLs alg, maxiter := 50000, relxtol := 1 / 10 ^ 8, absxtol := algXtol alg,
    relftol := 1 / 10 ^ 8, gtol := 1 / 10 ^ 12, nlocs := algNlocs alg, ws := algWs d alg,
    verbose := 0, nevals := 0, ngvals := 0, niters := 0, prev := none, nvec := 40, scale := 0,
    sgd := algSgd alg, stGrad := 0, stFunc := 0, stX := 0, sGrad := none, sFunc := none, sX := none }

/-- The three trace buffers, `calloc_double(d*sizeof(double)*maxiter)` (numbers, so eight times as long as needed),
optimization.c:425-433 and 803-811. A buffer whose flag is not 1 keeps the value `old`. -/
def traceBufs (d maxiter : Nat) (sg sf sx : Int) (og os ox : Option (List K)) :
    Option (List K) × Option (List K) × Option (List K) :=
  (if sg = 1 then some (List.replicate (d * 8 * maxiter) 0) else og,
   if sf = 1 then some (List.replicate (8 * maxiter) 0) else os,
   if sx = 1 then some (List.replicate (d * 8 * maxiter) 0) else ox)

/-- optimization.c:375-435 `c3opt_set_nvars`; `M` is `DBL_MAX`. -/
def setNvars (M : K) (o : Opt K F G A) (n : Nat) : Opt K F G A :=
  let t := traceBufs (K := K) n o.maxiter o.stGrad o.stFunc o.stX none none none
  { o with
    d := n, lb := some (List.replicate n (-M)), ub := some (List.replicate n M),
    grad := algGrad o.alg, ws := algWs n o.alg,
    nlocs := match o.alg with | .bruteforce => some 0 | _ => o.nlocs,
    ls := match o.alg with | .bruteforce => none | _ => o.ls,
    nevals := 0, ngvals := 0, niters := 0,
    sGrad := t.1, sFunc := t.2.1, sX := t.2.2 }

/-- optimization.c:920-931 `c3opt_set_brute_force_vals`. The message for another algorithm does not stop the function. -/
def bruteVals (o : Opt K F G A) (n : Nat) (loc : Option (List K)) : C (Opt K F G A) := do
  let w ← move (some (List.replicate (n * o.d) (0 : K))) loc (o.d * n)
  .ok { o with nlocs := some n, ws := w }

/-- optimization.c:672-677 `c3opt_add_lb`. -/
def addLb (o : Opt K F G A) (b : Option (List K)) : C (Opt K F G A) := do
  cassert (b.isSome = true)
  let w ← move o.lb b o.d
  .ok { o with lb := w }

/-- optimization.c:689-694 `c3opt_add_ub`. -/
def addUb (o : Opt K F G A) (b : Option (List K)) : C (Opt K F G A) := do
  cassert (b.isSome = true)
  let w ← move o.ub b o.d
  .ok { o with ub := w }

/-- optimization.c:796-812 `c3opt_set_storage_options`. -/
def setStorage (o : Opt K F G A) (sf sg sx : Int) : Opt K F G A :=
  let t := traceBufs (K := K) o.d o.maxiter sg sf sx o.sGrad o.sFunc o.sX
  { o with stFunc := sf, stGrad := sg, stX := sx, sGrad := t.1, sFunc := t.2.1, sX := t.2.2 }

/-- One trace buffer of the copy, optimization.c:574-585: fresh zeros, then `memmove` of `n*sizeof(double)` **bytes**, i.e. `n`
numbers of the `8*n` that were allocated. -/
def copyTrace (flag : Int) (n : Nat) (old : Option (List K)) : C (Option (List K)) :=
  if flag = 1 then move (some (List.replicate (8 * n) (0 : K))) old n else .ok none

/-- optimization.c:529-588 `c3opt_copy` (of a non-NULL object). The assignments of 539-545 and 563-573 do not influence the calls in
between (`c3opt_set_brute_force_vals` reads `d`), so they are collected in one update at the end. -/
def copy (o : Opt K F G A) : C (Opt K F G A) := do
  let n : Opt K F G A := alloc o.alg o.d
  let lb ← move n.lb o.lb n.d
  let ub ← move n.ub o.ub n.d
  let m ← match o.alg with
    | .bfgs | .batchgrad | .lbfgs => (do
      let w ← move n.ws o.ws (4 * n.d)
      match o.ls with
      | none => .error .null
      | some l => .ok { n with nlocs := o.nlocs, grad := 1, ws := w, ls := some (lsCopy l) } : C (Opt K F G A))
    | .sgd => do
      let w ← move n.ws o.ws (4 * n.d)
      match o.sgd with
      | none => .error .null
      | some s => .ok { n with nlocs := o.nlocs, ws := w, sgd := some (sgdCopy s) }
    | .bruteforce =>
      match o.nlocs with
      | none => .error .ub
      | some k => bruteVals { n with nlocs := some k } k o.ws
  let sg ← copyTrace o.stGrad (n.d * o.maxiter) o.sGrad
  let sx ← copyTrace o.stX (n.d * o.maxiter) o.sX
  let sf ← copyTrace o.stFunc o.maxiter o.sFunc
  .ok { m with
    f := o.f, farg := o.farg, lb := lb, ub := ub, verbose := o.verbose, maxiter := o.maxiter, relxtol := o.relxtol,
    absxtol := o.absxtol, relftol := o.relftol, gtol := o.gtol,
    nevals := o.nevals, ngvals := o.ngvals, niters := o.niters, prev := o.prev, nvec := o.nvec, scale := o.scale,
    stGrad := o.stGrad, stFunc := o.stFunc, stX := o.stX, sGrad := sg, sFunc := sf, sX := sx }

/-- A call on an existing object: optimization.c:375, 672, 689, 704-708, 716-720, 728-732, 766-770, 778-782, 796, 872-909 (line
search), 611-616, 632-636, 920, 936, 948, 1607-1625. -/
inductive Op (K F G A : Type)
  | nvars (n : Nat)
  | lb (b : Option (List K))
  | ub (b : Option (List K))
  | verbose (v : Int)
  | maxiter (n : Nat)
  | absxtol (x : K)
  | relftol (x : K)
  | gtol (x : K)
  | storage (sf sg sx : Int)
  | lsAlg (a : LAlg)
  | lsAlpha (x : K)
  | lsBeta (x : K)
  | lsMaxiter (n : Nat)
  | nvec (n : Nat)
  | scale (s : Int)
  | brute (n : Nat) (loc : Option (List K))
  | objective (f : Option F) (a : Option A)
  | stoch (g : Option G) (a : Option A)
  | rate (x : K)
  | nsamples (n : Nat)

/-- Changing one line search parameter: `assert (ls != NULL)`, optimization.c:130-178. -/
def onLs (o : Opt K F G A) (h : LS K → LS K) : C (Opt K F G A) :=
  match o.ls with
  | none => .error .assertFail
  | some l => .ok { o with ls := some (h l) }

/-- One call. `c3opt_set_sgd_learn_rate` asserts that there are SGD parameters and a rate of at most one, 1607-1614;
`c3opt_set_sgd_nsamples` dereferences them, 1619-1623. -/
def step [LinearOrder K] (M : K) (o : Opt K F G A) : Op K F G A → C (Opt K F G A)
  | .nvars n => .ok (setNvars M o n)
  | .lb b => addLb o b
  | .ub b => addUb o b
  | .verbose v => .ok { o with verbose := v }
  | .maxiter n => .ok { o with maxiter := n }
  | .absxtol x => .ok { o with absxtol := x }
  | .relftol x => .ok { o with relftol := x }
  | .gtol x => .ok { o with gtol := x }
  | .storage sf sg sx => .ok (setStorage o sf sg sx)
  | .lsAlg a => onLs o (fun l => { l with alg := a })
  | .lsAlpha x => onLs o (fun l => { l with alpha := x })
  | .lsBeta x => onLs o (fun l => { l with beta := x })
  | .lsMaxiter n => onLs o (fun l => { l with maxiter := n })
  | .nvec n => .ok { o with nvec := n }
  | .scale s => .ok { o with scale := s }
  | .brute n loc => bruteVals o n loc
  | .objective f a => .ok { o with f := f, farg := a }
  | .stoch g a => .ok { o with fsgd := some g, farg := a }
  | .rate x => match o.sgd with
    | none => .error .assertFail
    | some s => if x ≤ 1 then .ok { o with sgd := some { s with rate := x } } else .error .assertFail
  | .nsamples n => match o.sgd with
    | none => .error .null
    | some s => .ok { o with sgd := some { s with nsamples := n } }

/-- A session: the calls in order. -/
def run [LinearOrder K] (M : K) (o : Opt K F G A) : List (Op K F G A) → C (Opt K F G A)
  | [] => .ok o
  | c :: cs => do
    let o' ← step M o c
    run M o' cs

end Field

/-- Writing the row `v` (of `d` numbers) of a trace at row `r`, `memmove(stored + r*d, v, d*sizeof(double))`. -/
def putRow (buf : Option (List K)) (d r : Nat) (v : List K) : C (Option (List K)) :=
  if d = 0 then .ok buf else
  match buf with
  | none => .error .null
  | some b =>
    if r * d + d ≤ b.length then
      if d ≤ v.length then .ok (some (b.take (r * d) ++ v.take d ++ b.drop (r * d + d))) else .error .oob
    else .error .oob

/-- `putRow` if the flag is 1. -/
def putIf (flag : Int) (buf : Option (List K)) (d r : Nat) (v : List K) : C (Option (List K)) :=
  if flag = 1 then putRow buf d r v else .ok buf

/-- The trace of one iterate at row `r`, optimization.c:1958-1966 (row `niters-1`) and 2061-2070 (row `niters`); the same code is at
2620-2628, 2688-2696, 2810-2818 and 2873-2881. -/
def record (o : Opt K F G A) (r : Nat) (fv : K) (g x : List K) : C (Opt K F G A) := do
  let sf ← putIf o.stFunc o.sFunc 1 r [fv]
  let sg ← putIf o.stGrad o.sGrad o.d r g
  let sx ← putIf o.stX o.sX o.d r x
  .ok { o with sFunc := sf, sGrad := sg, sX := sx }

/-- The recording part of a run with the iterates `its` (value, gradient, point): the counter starts at 1 with the first iterate in
row 0, every further iterate goes to row `niters`, and then the counter is increased, optimization.c:1943, 1958-1966, 2061-2070,
2201. -/
def recordAll (o : Opt K F G A) : List (K × List K × List K) → C (Opt K F G A)
  | [] => .ok o
  | i :: is => do
    let o1 ← record { o with niters := 1 } 0 i.1 i.2.1 i.2.2
    is.foldlM (fun (p : Opt K F G A) j => do
      let q ← record p p.niters j.1 j.2.1 j.2.2
      .ok { q with niters := p.niters + 1 }) o1

/-- `stored[i]` -/
def at' (b : Option (List K)) (i : Nat) : C K :=
  match b with
  | none => .error .null
  | some l => rd l i

/-- optimization.c:742-747 `c3opt_get_stored_function`. -/
def storedFunc (o : Opt K F G A) (i : Nat) : C K := do
  cassert (o.stFunc = 1)
  cassert (i < o.niters)
  at' o.sFunc i

/-- The `n` numbers from position `k`, if the flag is 1. -/
def printIf (flag : Int) (buf : Option (List K)) (k n : Nat) : C (List K) :=
  if flag = 1 then (List.range n).mapM (fun j => at' buf (k + j)) else .ok []

/-- One printed line after the iteration number, optimization.c:840-855. The coordinates are read with the stride `niters`. -/
def printRow (o : Opt K F G A) (i : Nat) : C (List K) := do
  let a ← printIf o.stFunc o.sFunc i 1
  let b ← printIf o.stGrad o.sGrad (i * o.niters) o.d
  let c ← printIf o.stX o.sX (i * o.niters) o.d
  .ok (a ++ b ++ c)

/-- optimization.c:820-858 `c3opt_print_stored_values`: the numbers of all lines (the header is left out). -/
def printAll (o : Opt K F G A) : C (List (List K)) := (List.range o.niters).mapM (printRow o)

/-- optimization.c:1002-1013 `c3opt_eval_stoch`: the function pointer is read; `ap` applies it. -/
def evalStoch {R : Type} (ap : G → Option A → Nat → R) (o : Opt K F G A) : C R :=
  match o.fsgd with
  | none => .error .ub
  | some none => .error .assertFail
  | some (some g) => .ok (ap g o.farg o.d)

end C3.Oo

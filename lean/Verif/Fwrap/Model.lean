/-
Function wrappers and fibers (lib_funcs/fwrap.c).  `K` is the type of one coordinate (`double`, or `size_t` for the
index type), `V` the type of a value.  Function pointers are Lean functions, `none` is a slot which
was never set (uninitialised memory).
-/
import Verif.Core.Mem

namespace C3.Fw

/-- Type tags, fwrap.h `Ftype`. -/
inductive Ftype | nd | intnd | vec | movec | arrvec
  deriving DecidableEq

/-- A vectorised user function: number of points and flat point array to return code and values. -/
abbrev VecFun (K V : Type) := Nat → List K → Int × List V

/-- fwrap.c:73-104 `struct Fwrap`. The pointwise slots `f` and `intf` are kept in one field `f` (the type tag tells
which one is used). -/
structure Fwrap (K V : Type) where
  d : Nat
  ftype : Ftype
  interface : Bool
  f : Option (List K → V)
  fvec : Option (VecFun K V)
  mofvec : Option (Nat → VecFun K V)
  /-- `none`: no array yet; entry `none`: slot of the `malloc`ed array not written yet -/
  arrfuncs : Option (List (Option (VecFun K V)))
  evalfunc : Nat
  fiberApprox : Bool
  fiberDim : Nat
  nfibers : Nat
  fiberVals : List (List K)
  onfiber : Nat

variable {K V : Type}

/-- fwrap.c:109-155 `fwrap_create`: `type` is the content of the type string. (`type == NULL` is tested only after
`strcmp` has read it, so NULL is undefined behaviour: not modelled.) -/
def create (dim : Nat) (type : String) : C (Fwrap K V) :=
  let base (t : Ftype) (i : Bool) : Fwrap K V :=
    ⟨dim, t, i, none, none, none, none, 0, false, 0, 0, [], 0⟩
  if type = "general" then .ok (base .nd false)
  else if type = "general-index" then .ok (base .intnd false)
  else if type = "general-vec" then .ok (base .vec false)
  else if type = "python" then .ok (base .vec true)
  else if type = "mo-vec" then .ok (base .movec false)
  else if type = "array-vec" then .ok (base .arrvec false)
  else .error .exit

/-- Function pointer used: `fwrap_create` does not initialise the slots, so reading a slot which was never set
(`assert(fw->f != NULL)` included) is undefined. Setting a slot to NULL explicitly is not modelled. -/
def need {α : Type} (o : Option α) : C α := match o with | some a => .ok a | none => .error .ub

/-- fwrap.c:172-181 `fwrap_set_f`. -/
def setF (fw : Fwrap K V) (f : List K → V) : C (Fwrap K V) :=
  if fw.ftype = .nd then .ok { fw with f := some f } else .error .exit

/-- fwrap.c:186-195 `fwrap_set_findex` (slot `intf`, kept in the same field). -/
def setFindex (fw : Fwrap K V) (f : List K → V) : C (Fwrap K V) :=
  if fw.ftype = .intnd then .ok { fw with f := some f } else .error .exit

/-- fwrap.c:200-211 `fwrap_set_fvec`. -/
def setFvec (fw : Fwrap K V) (f : VecFun K V) : C (Fwrap K V) :=
  if fw.ftype = .vec then .ok { fw with fvec := some f } else .error .exit

/-- fwrap.c:216-227 `fwrap_set_mofvec`. -/
def setMofvec (fw : Fwrap K V) (f : Nat → VecFun K V) : C (Fwrap K V) :=
  if fw.ftype = .movec then .ok { fw with mofvec := some f } else .error .exit

/-- fwrap.c:233-237 `fwrap_set_which_eval`: no range check. -/
def setWhichEval (fw : Fwrap K V) (which : Nat) : Fwrap K V := { fw with evalfunc := which }

/-- fwrap.c:252-263 `fwrap_set_num_funcs`. -/
def setNumFuncs (fw : Fwrap K V) (n : Nat) : C (Fwrap K V) :=
  if fw.ftype = .arrvec then .ok { fw with arrfuncs := some (List.replicate n none) } else .error .exit

/-- fwrap.c:268-280 `fwrap_set_func_array`; `nfuncs` is the length of the array; before
`fwrap_set_num_funcs` it is uninitialised memory. -/
def setFuncArray (fw : Fwrap K V) (ind : Nat) (f : VecFun K V) : C (Fwrap K V) :=
  if fw.ftype = .arrvec then do
    let fs ← need fw.arrfuncs
    cassert (decide (ind < fs.length))
    let fs ← wr fs ind (some f)
    pure { fw with arrfuncs := some fs }
  else .error .exit

/-- `d` consecutive entries starting at `off`. -/
def slice (x : List K) (off d : Nat) : C (List K) :=
  if off + d ≤ x.length then .ok ((x.drop off).take d) else .error .oob

/-- The evaluation loop `out[ii] = f(xin + ii*d)`. -/
def evalLoop (f : List K → V) (d nevals : Nat) (x : List K) : C (List V) :=
  forN nevals (fun ii out => do
    let p ← slice x (ii * d) d
    pure (out ++ [f p])) []

/-- Calling through a pointer slot which was never written is undefined. -/
def written {α : Type} (o : Option α) : C α := match o with | some a => .ok a | none => .error .ub

/-- The dispatch of fwrap.c:311-342 (body of `fwrap_eval` without the fiber test) on a flat array of points. -/
def dispatch (fw : Fwrap K V) (nevals : Nat) (x : List K) : C (Int × List V) :=
  match fw.ftype with
  | .nd | .intnd => do
    let f ← need fw.f
    let out ← evalLoop f fw.d nevals x
    pure (0, out)
  | .vec => do
    let f ← need fw.fvec
    pure (f nevals x)
  | .movec => do
    let f ← need fw.mofvec
    pure (f fw.evalfunc nevals x)
  | .arrvec => do
    let fs ← need fw.arrfuncs
    let o ← rd fs fw.evalfunc
    let f ← written o
    pure (f nevals x)

/-- Row `ii` of `xeval`: copy the fixed values, then overwrite the fiber coordinate (fwrap.c:489-494, 508-513). -/
def fiberRow (d fdim : Nat) (fv : List K) (xi : K) (xeval : List K) (ii : Nat) : C (List K) := do
  let xeval ← forN d (fun jj xe => do
    let v ← rd fv jj
    wr xe (ii * d + jj) v) xeval
  wr xeval (ii * d + fdim) xi

/-- fwrap.c:478-540 `fwrap_eval_fiber`. `zero` is the value of `calloc`ed memory. -/
def evalFiber [Zero K] (fw : Fwrap K V) (nevals : Nat) (x : List K) : C (Int × List V) := do
  let fv ← rd fw.fiberVals fw.onfiber
  let xeval ← forN nevals (fun ii xe => do
    let xi ← rd x ii
    fiberRow fw.d fw.fiberDim fv xi xe ii) (List.replicate (nevals * fw.d) 0)
  dispatch fw nevals xeval

/-- fwrap.c:302-343 `fwrap_eval`. -/
def eval [Zero K] (fw : Fwrap K V) (nevals : Nat) (x : List K) : C (Int × List V) :=
  if fw.fiberApprox then evalFiber fw nevals x else dispatch fw nevals x

/-- fwrap.c:367-392 `fwrap_initialize_fiber_approx`. -/
def initFiber [Zero K] (fw : Fwrap K V) (ind nfibers : Nat) : Fwrap K V :=
  { fw with fiberApprox := true, fiberDim := ind, nfibers := nfibers,
            fiberVals := List.replicate nfibers (List.replicate fw.d 0) }

/-- `memmove(dst+off,src,n)` in elements. -/
def memmove (dst : List K) (off : Nat) (src : List K) (n : Nat) : C (List K) :=
  forN n (fun i a => do
    let v ← rd src i
    wr a (off + i) v) dst

/-- fwrap.c:404-436 `fwrap_add_fiber`. -/
def addFiber (fw : Fwrap K V) (ind nl : Nat) (left : List K) (nr : Nat) (right : List K) : C (Fwrap K V) := do
  cassert fw.fiberApprox
  cassert (decide (nl + nr + 1 = fw.d))
  cassert (decide (nl = fw.fiberDim))
  cassert (decide (ind < fw.nfibers))
  let fv ← rd fw.fiberVals ind
  let fv ← memmove fv 0 left nl
  let fv ← memmove fv (nl + 1) right nr
  let vals ← wr fw.fiberVals ind fv
  pure { fw with fiberVals := vals }

/-- fwrap.c:441-450 `fwrap_set_which_fiber`. -/
def setWhich (fw : Fwrap K V) (which : Nat) : C (Fwrap K V) := do
  cassert fw.fiberApprox
  cassert (decide (which < fw.nfibers))
  pure { fw with onfiber := which }

/-- fwrap.c:457-470 `fwrap_clean_fiber_approx`; `fiber_dim` and `onfiber` keep their values. -/
def cleanFiber (fw : Fwrap K V) : Fwrap K V :=
  { fw with fiberApprox := false, fiberVals := [], nfibers := 0 }

/-- A history of registrations. -/
def addRun : List (Nat × List K × List K) → Fwrap K V → C (Fwrap K V)
  | [], fw => .ok fw
  | (ind, l, r) :: h, fw => do
    let fw ← addFiber fw ind l.length l r.length r
    addRun h fw

end C3.Fw

/-
Objective functions of the regression (lib_superlearn/objective_functions.c) and the regulariser
(regress.c, ft.c, qmarray.c).

The state `S` is the parameterised train, which some objective functions update and others only
read.  Buffers for gradients are lists; a null gradient is `none`.
-/
import Verif.Core.Sum

namespace C3.Sl

variable {K S U : Type} [Field K] [DecidableEq K]

/-- Type of the member `func` of objective_functions.c:53-60 `struct ObjectiveFunction`: parameters,
gradient buffer, number of data, data index, state.  Returns value, gradient, state. -/
abbrev ObjFn (K S : Type) :=
  List K → Option (List K) → Nat → Option (List Nat) → S → C (K × Option (List K) × S)

/-- objective_functions.c:53-60 `struct ObjectiveFunction`: the linked list is a list of pairs of
weight and function. -/
abbrev ObjList (K S : Type) := List (K × ObjFn K S)

/-- objective_functions.c:89-107 `objective_function_add`: appended at the end. -/
def objAdd : ObjList K S → K → ObjFn K S → ObjList K S
  | [], w, f => [(w, f)]
  | o :: t, w, f => o :: objAdd t w f

/-- objective_functions.c:110-132 `objective_eval`: the loop over the list. -/
def objLoop (param : List K) (N : Nat) (ind : Option (List Nat)) :
    ObjList K S → K → Option (List K) → S → C (K × Option (List K) × S)
  | [], out, g, s => .ok (out, g, s)
  | o :: t, out, g, s => do
    let q ← o.2 param g N ind s
    objLoop param N ind t (out + o.1 * q.1) q.2.1 q.2.2

/-- objective_functions.c:110-132 `objective_eval`: the first loop clears the gradient. -/
def objClear (nparam : Nat) : Option (List K) → C (Option (List K))
  | none => .ok none
  | some g => do
    let g ← forN nparam (fun ii b => wr b ii 0) g
    .ok (some g)

/-- objective_functions.c:110-132 `objective_eval`. -/
def objEval (objs : ObjList K S) (nparam : Nat) (param : List K) (grad : Option (List K)) (N : Nat)
    (ind : Option (List Nat)) (s : S) : C (K × Option (List K) × S) := do
  let g ← objClear nparam grad
  objLoop param N ind objs 0 g s

/-- objective_functions.c:141-232 `c3_objective_function_least_squares`: `data_index[ii]`, or `ii`
without an index. -/
def ix : Option (List Nat) → Nat → C Nat
  | none, ii => .ok ii
  | some l, ii => rd l ii

/-- objective_functions.c:141-232 `c3_objective_function_least_squares`: product with the sample
weight, if there are sample weights. -/
def sw : Option (List K) → Nat → K → C K
  | none, _, v => .ok v
  | some w, k, v => do
    let a ← rd w k
    .ok (v * a)

/-- The member `mapping` of `struct LeastSquaresArgs`: predictions for the data points of the index
and, if asked for, the gradients, `grads[ii*nparam+jj]`.  Updates the state. -/
structure Mapping (K S : Type) where
  vals : List K → Nat → Option (List Nat) → S → C (List K × S)
  valsGrads : List K → Nat → Option (List Nat) → S → C (List K × List K × S)

/-- objective_functions.c:141-232 `c3_objective_function_least_squares`: body without gradient;
`data_subtract_from_y` (superlearn_util.c:492-495) inlined. -/
def lsStep (y : List K) (w : Option (List K)) (ind : Option (List Nat)) (ev : List K) (ii : Nat)
    (out : K) : C K := do
  let k ← ix ind ii
  let yk ← rd y k
  let e ← rd ev ii
  let t ← sw w k ((yk - e) * (yk - e))
  .ok (out + t)

/-- objective_functions.c:141-232 `c3_objective_function_least_squares`: body with gradient. -/
def lsStepGrad (nparam : Nat) (y : List K) (w : Option (List K)) (ind : Option (List Nat))
    (ev gr : List K) (ii : Nat) (q : K × List K) : C (K × List K) := do
  let k ← ix ind ii
  let yk ← rd y k
  let e ← rd ev ii
  let t ← sw w k ((yk - e) * (yk - e))
  let g ← forN nparam (fun jj b => do
    let a ← rd gr (ii * nparam + jj)
    let t ← sw w k (2 * (yk - e) * a)
    let o ← rd b jj
    wr b jj (o - t)) q.2
  .ok (q.1 + t, g)

/-- Division; `x / 0` is not a number in the code and undefined here. -/
def fdiv (a b : K) : C K := if b = 0 then .error .ub else .ok (a / b)

/-- objective_functions.c:141-232 `c3_objective_function_least_squares`. -/
def lsObj (nparam : Nat) (M : Mapping K S) (y : List K) (w : Option (List K)) : ObjFn K S :=
  fun param grad N ind s =>
    match grad with
    | none => do
      let q ← M.vals param N ind s
      let out ← forN N (lsStep y w ind q.1) 0
      let out ← fdiv out (N : K)
      .ok (out, none, q.2)
    | some g => do
      let q ← M.valsGrads param N ind s
      let r ← forN N (lsStepGrad nparam y w ind q.1 q.2.1) (0, g)
      let g ← forN nparam (fun jj b => do
        let o ← rd b jj
        let v ← fdiv o (N : K)
        wr b jj v) r.2
      let out ← fdiv r.1 (N : K)
      .ok (out, some g, q.2.2)

/-- superlearn.c:55-60 `objective_batch`: all `N` data. -/
def objBatch (objs : ObjList K S) (nparam N : Nat) (param : List K) (grad : Option (List K))
    (s : S) : C (K × Option (List K) × S) := objEval objs nparam param grad N none s

/-- superlearn.c:65-68 `objective_stoch`: one datum. -/
def objStoch (objs : ObjList K S) (nparam : Nat) (ind : Nat) (param : List K)
    (grad : Option (List K)) (s : S) : C (K × Option (List K) × S) :=
  objEval objs nparam param grad 1 (some [ind]) s

/-- The univariate functions of a train as far as the regulariser sees them: squared norm
(`generic_function_inner` of the function with itself) and its derivatives with respect to the
parameters of the function (`generic_function_squared_norm_param_grad` adds `scale` times these). -/
structure SqN (K U : Type) where
  sq : U → K
  dsq : U → List K

/-- functions.c:2419-2428 `generic_function_squared_norm_param_grad`: adds `scale` times the
derivatives at offset `off`. -/
def addAt (scale : K) (d : List K) (off : Nat) (g : List K) : C (List K) :=
  forN d.length (fun l b => do
    let a ← rd d l
    let o ← rd b (off + l)
    wr b (off + l) (o + scale * a)) g

/-- qmarray.c:3651-3675 `qmarray_param_grad_sqnorm`, the loop over the functions; the pointer
`grad+runparam` is the offset `run`. -/
def coreSq (N : SqN K U) (scale : K) :
    List U → K → Nat → Option (List K) → C (K × Option (List K))
  | [], out, _, g => .ok (out, g)
  | u :: t, out, run, none => coreSq N scale t (out + scale * N.sq u) run none
  | u :: t, out, run, some g => do
    let g ← addAt scale (N.dsq u) run g
    coreSq N scale t (out + scale * N.sq u) (run + (N.dsq u).length) (some g)

/-- Number of parameters of a core (`qmarray_get_nparams`, qmarray.c). -/
def coreNp (N : SqN K U) (core : List U) : Nat := (core.map (fun u => (N.dsq u).length)).sum

/-- ft.c:970-990 `function_train_param_grad_sqnorm`, loop over the cores from core `ii` on. -/
def ftSq (N : SqN K U) (weights : List K) :
    List (List U) → Nat → K → Nat → Option (List K) → C (K × Option (List K))
  | [], _, out, _, g => .ok (out, g)
  | core :: t, ii, out, run, g => do
    let w ← rd weights ii
    let q ← coreSq N w core 0 run g
    ftSq N weights t (ii + 1) (out + q.1) (run + coreNp N core) q.2

/-- regress.c:366-419 `ft_param_grad_sqnorm_learning_interface`, type AIO: the cores are those of the
current state, the parameters handed over are ignored. -/
def regObj (N : SqN K U) (cores : S → List (List U)) (lam : K) : ObjFn K S :=
  fun _ grad _ _ s => do
    let q ← ftSq N (List.replicate (cores s).length (1 / 2 * lam)) (cores s) 0 0 0 grad
    .ok (q.1, q.2, s)

/-- regress.c:421-439 `build_objective`: `FTLS`. -/
def buildLS (ls : ObjFn K S) : ObjList K S := objAdd [] 1 ls

/-- regress.c:421-439 `build_objective`: `FTLS_SPARSEL2`. -/
def buildLSReg (ls reg : ObjFn K S) : ObjList K S := objAdd (objAdd [] 1 ls) 1 reg

end C3.Sl

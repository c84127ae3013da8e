/-
The regression driver (c3/lib_superlearn/regress.c, superlearn.c) with all parameters at once, and Kristoffel weighting
(c3/lib_clinalg/ft.c, qmarray.c, c3/lib_funcs/functions.c): labels and basis functions are divided by the weight of the point.
-/
import Verif.Sl.AioModel
import Mathlib.Analysis.Real.Sqrt

namespace C3.Sl
variable {K U : Type} [Field K] [DecidableEq K]

/-- A univariate function: whether it is a polynomial (`fc == POLYNOMIAL`), the flag `kristoffel_eval`, the function. -/
structure KU (U : Type) where
  poly : Bool
  krist : Int
  f : U

/-- Apply a function that may fail to all entries. -/
def mapC {α β : Type} (f : α → C β) : List α → C (List β)
  | [] => .ok []
  | a :: l => do
    let b ← f a
    let t ← mapC f l
    .ok (b :: t)

/-- c3/lib_funcs/functions.c:904-914 `generic_function_activate_kristoffel`. -/
def actFn (u : KU U) : C (KU U) := if u.poly then .ok { u with krist := 1 } else .error .exit

/-- c3/lib_funcs/functions.c:916-922 `generic_function_deactivate_kristoffel`. -/
def deactFn (u : KU U) : KU U := if u.poly then { u with krist := 0 } else u

/-- c3/lib_clinalg/ft.c:3949-3954 `function_train_activate_kristoffel`, qmarray.c:3804-3809: all functions of all cores (the lists
of the model hold exactly these). -/
def ftActivate (F : FTP K (KU U)) : C (FTP K (KU U)) := do
  let cs ← mapC (mapC actFn) F.cores
  .ok { F with cores := cs }

/-- c3/lib_clinalg/ft.c:3956-3961 `function_train_deactivate_kristoffel`, qmarray.c:3811-3816. -/
def ftDeactivate (F : FTP K (KU U)) : FTP K (KU U) := { F with cores := F.cores.map (List.map deactFn) }

/-- c3/lib_funcs/functions.c:933-945 `generic_function_get_kristoffel_weight`; `wt` is
`orth_poly_expansion_get_kristoffel_weight` (`C3.Poly.kristWeight`; the Fourier basis, which it refuses, is left out). -/
def kwFn (wt : U → K → K) (u : KU U) (x : K) : C K := if u.poly then .ok (wt u.f x) else .error .exit

/-- c3/lib_clinalg/ft.c:3971-3980 `function_train_get_kristoffel_weight`, qmarray.c:3829-3834: the weight of the first function of
each core; the point starts at `off`. -/
def kwFt (wt : U → K → K) (F : FTP K (KU U)) (x : List K) (off : Nat) : C K :=
  forN F.dim (fun ii w => do
    let core ← rd F.cores ii
    let u ← rd core 0
    let xk ← rd x (off + ii)
    let v ← kwFn wt u xk
    .ok (w * v)) 1

/-- c3/lib_superlearn/regress.c:771-776: the labels divided by the weights. -/
def kLabels (wt : U → K → K) (F : FTP K (KU U)) (N : Nat) (x yin : List K) : C (List K) :=
  forN N (fun ii y => do
    let n ← kwFt wt F x (ii * F.dim)
    let a ← rd yin ii
    let v ← fdiv a n
    wr y ii v) (List.replicate N 0)

/-- `generic_function_param_grad_eval` at one point, c3/lib_funcs/polynomials.c:3092-3141: basis values, divided by the weight of
the function itself if its flag is 1 (`C3.Poly.paramGrad`; division by zero is not a number there, weights are nonzero in the
theorems). -/
def kBas (wt : U → K → K) (bas : U → K → List K) (u : KU U) (x : K) : List K :=
  if u.krist = 1 then (bas u.f x).map (fun b => b / wt u.f x) else bas u.f x

/-- What the optimizer is: it is given the objective (value, gradient, and the new state of the train), the first guess and the
state; it returns its code, the final parameters and the state (`c3opt_minimize` through superlearn.c:72-87
`objective_minimize`). -/
abbrev Solver (K S : Type) :=
  (List K → Option (List K) → S → C (K × Option (List K) × S)) → List K → S → C (Int × List K × S)

/-- c3/lib_superlearn/superlearn.c:98-106 `slp_solve`: 0 whatever the code of the optimizer. -/
def slpSolve {S : Type} (solve : Solver K S) (obj : List K → Option (List K) → S → C (K × Option (List K) × S)) (guess : List K) (s : S) :
    C (Int × List K × S) := do
  let q ← solve obj guess s
  .ok (0, q.2.1, q.2.2)

/-- c3/lib_superlearn/regress.c:285-304 `create_initial_guess`: a copy of the parameters (numbers are exact, the tests for `nan` and
`inf` never fire). -/
def initGuess (F : FTP K U) : C (List K) :=
  forN F.nparams (fun i g => do
    let v ← rd F.params i
    wr g i v) (List.replicate F.nparams 0)

/-- c3/lib_superlearn/regress.c:461-507 `c3_regression_run_aio`, linear structure, objective `FTLS`, no stochastic descent. Work arrays
as in superlearn_util.c:213-262 `sl_mem_manager_alloc` (`lin_structure_vals` is not cleared in the code). Returned: the final train
(a copy) and the state of the parameterised train. -/
def runAio (bas : U → K → List K) (solve : Solver K (FTP K U)) (F : FTP K U) (N : Nat) (x y : List K) : C (FTP K U × FTP K U) := do
  let lin ← preCompute F bas N x (List.replicate (N * F.nparams) 0)
  let guess ← initGuess F
  let q ← slpSolve solve (objBatch (buildLS (lsObj F.nparams (aioMap lin (List.replicate (2 * F.nparams) 0)
    (List.replicate (2 * F.nparams) 0) (List.replicate (N * F.nparams) 0)) y none)) F.nparams N) guess F
  if q.1 ≠ 0 then .error .exit else do
  let G ← updateParams q.2.2 q.2.1
  .ok (G, G)

/-- c3/lib_superlearn/regress.c:766-778: activation and labels. -/
def kPrep (wt : U → K → K) (kr : Int) (F : FTP K (KU U)) (N : Nat) (x yin : List K) : C (FTP K (KU U) × List K) :=
  if kr ≠ 0 then do
    let F ← ftActivate F
    let y ← kLabels wt F N x yin
    .ok (F, y)
  else .ok (F, yin)

/-- c3/lib_superlearn/learning_options.h: `AIO` and `ALS`. -/
inductive RegT | aio | als | other
  deriving DecidableEq

/-- c3/lib_superlearn/regress.c:780-791: the choice of the method; `als` is `c3_regression_run_als` (`C3.Sl.alsRun`). -/
def runType (ty : RegT) (bas : U → K → List K) (solve : Solver K (FTP K U))
    (als : FTP K U → Nat → List K → List K → C (FTP K U × FTP K U)) (F : FTP K U) (N : Nat) (x y : List K) : C (FTP K U × FTP K U) :=
  match ty with
  | .aio => runAio bas solve F N x y
  | .als => als F N x y
  | .other => .error .exit

/-- c3/lib_superlearn/regress.c:793-797: the flags are reset only if the option is exactly 1. -/
def kDone (kr : Int) (q : FTP K (KU U) × FTP K (KU U)) : FTP K (KU U) × FTP K (KU U) :=
  if kr = 1 then (ftDeactivate q.1, ftDeactivate q.2) else q

/-- c3/lib_superlearn/regress.c:762-801 `c3_regression_run`. -/
def regRun (wt : U → K → K) (bas : U → K → List K) (ty : RegT) (kr : Int) (solve : Solver K (FTP K (KU U)))
    (als : FTP K (KU U) → Nat → List K → List K → C (FTP K (KU U) × FTP K (KU U)))
    (F : FTP K (KU U)) (N : Nat) (x yin : List K) : C (FTP K (KU U) × FTP K (KU U)) := do
  let a ← kPrep wt kr F N x yin
  let q ← runType ty (kBas wt bas) solve als a.1 N x a.2
  .ok (kDone kr q)

/-- c3/lib_superlearn/regress.c:1260-1277: a new start if the parameters are (nearly) zero; `mk` is `ft_param_create_from_lin_ls`
(`C3.Sl.Guess`), `tol` is 1e-15. -/
noncomputable def startPar (tol : ℝ) (mk : FTP ℝ U → C (FTP ℝ U)) (F : FTP ℝ U) : C (FTP ℝ U) := do
  let n ← dotAt F.nparams F.params 0 F.params 0
  if |n| ≤ tol then mk F else .ok F

/-- c3/lib_superlearn/regress.c:1250-1287 `ft_regress_run`; `ra` is `ft_regress_run_rankadapt` (`C3.Sl.RankModel`). -/
noncomputable def ftRegressRun (tol : ℝ) (mk : FTP ℝ U → C (FTP ℝ U)) (adapt : Int) (ra run : FTP ℝ U → C (FTP ℝ U × FTP ℝ U))
    (F : FTP ℝ U) : C (FTP ℝ U × FTP ℝ U) := do
  let F ← startPar tol mk F
  if adapt = 1 then ra F else run F

end C3.Sl

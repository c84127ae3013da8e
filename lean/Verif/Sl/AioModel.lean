/-
All-at-once regression with functions that are linear in their parameters: precomputed basis values
(superlearn_util.c), parameter update (parameterization.c), predictions and gradients (regress.c).
-/
import Verif.Sl.Model
import Verif.Sl.ObjModel

namespace C3.Sl

variable {K U : Type} [Field K] [DecidableEq K]

/-- parameterization.c:368-372 `ft_param_update_params`: only the copy `ftp->params` is kept here,
the update of the functions themselves is `function_train_update_params` (`Verif.Ft.Param`). -/
def updateParams (F : FTP K U) (p : List K) : C (FTP K U) := do
  let q ← forN F.nparams (fun i b => do
    let v ← rd p i
    wr b i v) F.params
  .ok { F with params := q }

/-- superlearn_util.c:336-367 `sl_mem_manager_check_structure`: basis values of one function
(`generic_function_param_grad_eval` at one location) at offset `base + onparam`; the state is the
array, `onparam`, `onuni`. -/
def preFun (F : FTP K U) (bas : U → K → List K) (base : Nat) (xk : K) (kk jj : Nat)
    (s : List K × Nat × Nat) : C (List K × Nat × Nat) := do
  let core ← rd F.cores kk
  let u ← rd core jj
  let l ← putAt s.1 (base + s.2.1) (bas u xk)
  let n ← rd F.npu s.2.2
  .ok (l, s.2.1 + n, s.2.2 + 1)

/-- superlearn_util.c:336-367 `sl_mem_manager_check_structure`: all functions of one point. -/
def prePoint (F : FTP K U) (bas : U → K → List K) (x : List K) (ii : Nat) (lin : List K) :
    C (List K) := do
  let s ← forN F.dim (fun kk s => do
    let a ← rd F.ranks kk
    let b ← rd F.ranks (kk + 1)
    forN (a * b) (fun jj s => do
      let xk ← rd x (ii * F.dim + kk)
      preFun F bas (ii * F.nparams) xk kk jj s) s) (lin, 0, 0)
  .ok s.1

/-- superlearn_util.c:336-367 `sl_mem_manager_check_structure`: the array `lin_structure_vals` of
all points (allocation of the running products not modelled). -/
def preCompute (F : FTP K U) (bas : U → K → List K) (N : Nat) (x lin : List K) : C (List K) :=
  forN N (prePoint F bas x) lin

/-- regress.c:333-364 `ft_param_learning_interface`, type AIO with linear structure, no gradient
(`ft_linparam_eval_grad`, regress.c:169-281): `mem->lin_structure_vals + k * nparams` is the list
starting there; the scratch memory is the same for every point. -/
def aioVals (lin mem : List K) (p : List K) (N : Nat) (ind : Option (List Nat)) (F : FTP K U) :
    C (List K × FTP K U) := do
  let F ← updateParams F p
  let ev ← forN N (fun ii ev => do
    let k ← ix ind ii
    let v ← evalLin F (lin.drop (k * F.nparams)) mem
    wr ev ii v) (List.replicate N 0)
  .ok (ev, F)

/-- regress.c:333-364 `ft_param_learning_interface`, type AIO with linear structure, with gradients
at `mem->grad->vals + ii * nparams`. -/
def aioValsGrads (lin mem evals grads : List K) (p : List K) (N : Nat) (ind : Option (List Nat))
    (F : FTP K U) : C (List K × List K × FTP K U) := do
  let F ← updateParams F p
  let s ← forN N (fun ii (s : List K × List K) => do
    let k ← ix ind ii
    let R ← gradevalLin F (lin.drop (k * F.nparams)) (s.2.drop (ii * F.nparams)) mem evals
    let ev ← wr s.1 ii R.out
    .ok (ev, s.2.take (ii * F.nparams) ++ R.grad)) (List.replicate N 0, grads)
  .ok (s.1, s.2, F)

/-- The mapping of `build_objective` (regress.c:421-439). -/
def aioMap (lin mem evals grads : List K) : Mapping K (FTP K U) where
  vals := aioVals lin mem
  valsGrads := aioValsGrads lin mem evals grads

end C3.Sl

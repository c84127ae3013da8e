/-
Alternating least squares: running left/right products, gradient with respect to one core, and the
sweep over cores.  Sources: c3/lib_superlearn/parameterization.c, c3/lib_superlearn/regress.c.
-/
import Verif.Sl.Model

namespace C3.Sl

variable {K U : Type} [CommRing K]

/-- A pointer argument that may be NULL; reading through NULL is an error. -/
def rdp (p : Option (List K)) (i : Nat) : C K :=
  match p with
  | none => .error .null
  | some l => rd l i

/-- Start of the parameters and of the functions of core `core`: the loops
`for (ii < core){ onparam += nparams_per_core[ii]; onuni += ranks[ii]*ranks[ii+1]; }`.
Result `(onparam, onuni)`. -/
def coreStart (F : FTP K U) (core : Nat) : C (Nat × Nat) :=
  forN core (fun ii (s : Nat × Nat) => do
    let n ← rd F.npc ii
    let a ← rd F.ranks ii
    let b ← rd F.ranks (ii + 1)
    .ok (s.1 + n, s.2 + a * b)) (0, 0)

/-- Local variables of the ALS helper functions: the buffer written, `onparam`, `onuni`. -/
structure As (K : Type) where
  buf : List K
  onparam : Nat
  onuni : Nat

/-- `cblas_ddot(nparams_per_uni[onuni], grad_evals+onparam, 1, params+onparam, 1)` for the current
position. -/
def dotCur (F : FTP K U) (gev : List K) (s : As K) : C (Nat × K) := do
  let np ← rd F.npu s.onuni
  let v ← dotAt np gev s.onparam F.params s.onparam
  .ok (np, v)

/-- parameterization.c:1200-1232 `process_sweep_left_right_lin`, inner loop of a core after the
first. -/
def lrLinRow (F : FTP K U) (gev : List K) (lr : Option (List K)) (ii jj : Nat) (s : As K) :
    C (As K) := do
  let q ← dotCur F gev s
  let a ← rd s.buf ii
  let b ← rdp lr jj
  let buf ← wr s.buf ii (a + q.2 * b)
  .ok ⟨buf, s.onparam + q.1, s.onuni + 1⟩

/-- parameterization.c:1200-1232 `process_sweep_left_right_lin`, body of the loop of the first
core. -/
def setCur (F : FTP K U) (gev : List K) (ii : Nat) (s : As K) : C (As K) := do
  let q ← dotCur F gev s
  let buf ← wr s.buf ii q.2
  .ok ⟨buf, s.onparam + q.1, s.onuni + 1⟩

/-- parameterization.c:1200-1232 `process_sweep_left_right_lin`. -/
def sweepLRLin (F : FTP K U) (cur : Nat) (gev : List K) (lr : Option (List K)) (up : List K) :
    C (List K) := do
  let r1 ← rd F.ranks cur
  let r2 ← rd F.ranks (cur + 1)
  let st ← coreStart F cur
  if cur > 0 then do
    let s ← forN r2 (fun ii (s : As K) => do
      let b ← wr s.buf ii 0
      forN r1 (lrLinRow F gev lr ii) { s with buf := b }) ⟨up, st.1, st.2⟩
    .ok s.buf
  else do
    let s ← forN r2 (setCur F gev) ⟨up, st.1, st.2⟩
    .ok s.buf

/-- parameterization.c:1237-1271 `process_sweep_right_left_lin`, inner loop of a core before the
last. -/
def rlLinRow (F : FTP K U) (gev : List K) (rl : Option (List K)) (ii jj : Nat) (s : As K) :
    C (As K) := do
  let q ← dotCur F gev s
  let a ← rd s.buf jj
  let b ← rdp rl ii
  let buf ← wr s.buf jj (a + q.2 * b)
  .ok ⟨buf, s.onparam + q.1, s.onuni + 1⟩

/-- parameterization.c:1237-1271 `process_sweep_right_left_lin`. -/
def sweepRLLin (F : FTP K U) (cur : Nat) (gev : List K) (rl : Option (List K)) (up : List K) :
    C (List K) := do
  let r1 ← rd F.ranks cur
  let r2 ← rd F.ranks (cur + 1)
  let st ← coreStart F cur
  if cur < F.dim - 1 then do
    let b ← forN r1 (fun jj b => wr b jj 0) up
    let s ← forN r2 (fun ii (s : As K) => forN r1 (rlLinRow F gev rl ii) s) ⟨b, st.1, st.2⟩
    .ok s.buf
  else do
    let s ← forN r1 (setCur F gev) ⟨up, st.1, st.2⟩
    .ok s.buf

/-- Local variables of `ft_param_core_eval_lin` and `ft_param_core_gradeval_lin`. -/
structure Ac (K : Type) where
  out : K
  grad : List K
  onparam : Nat
  onuni : Nat
  ongrad : Nat

/-- parameterization.c:1466-1538 `ft_param_core_gradeval_lin`, one univariate function: `m` is the
product of running factors in that branch. -/
def cgUni (F : FTP K U) (gev : List K) (m : K) (s : Ac K) : C (Ac K) := do
  let np ← rd F.npu s.onuni
  let t ← dotAt np gev s.onparam F.params s.onparam
  let s' ← forN np (fun _ (s : Ac K) => do
    let g ← rd gev s.onparam
    let grad ← wr s.grad s.ongrad (m * g)
    .ok { s with grad := grad, onparam := s.onparam + 1, ongrad := s.ongrad + 1 })
    { s with out := s.out + t * m }
  .ok { s' with onuni := s'.onuni + 1 }

/-- parameterization.c:1466-1538 `ft_param_core_gradeval_lin`. -/
def coreGradLin (F : FTP K U) (core : Nat) (grad : List K) (lr rl : Option (List K))
    (gev : List K) : C (K × List K) := do
  let st ← coreStart F core
  let s0 : Ac K := ⟨0, grad, st.1, st.2, 0⟩
  let r1 ← rd F.ranks core
  let r2 ← rd F.ranks (core + 1)
  if 0 < core ∧ core < F.dim - 1 then do
    let s ← forN r2 (fun col s => forN r1 (fun row (s : Ac K) => do
      let a ← rdp lr row
      let b ← rdp rl col
      cgUni F gev (a * b) s) s) s0
    .ok (s.out, s.grad)
  else if core = F.dim - 1 then do
    let s ← forN r1 (fun row (s : Ac K) => do
      let a ← rdp lr row
      cgUni F gev a s) s0
    .ok (s.out, s.grad)
  else do
    let s ← forN r2 (fun col (s : Ac K) => do
      let b ← rdp rl col
      cgUni F gev b s) s0
    .ok (s.out, s.grad)

/-- parameterization.c:1395-1450 `ft_param_core_eval_lin`, start of the core: it adds up
`nparams_per_uni` instead of `nparams_per_core`. -/
def coreStartUni (F : FTP K U) (core : Nat) : C (Nat × Nat) :=
  forN core (fun kk (s : Nat × Nat) => do
    let a ← rd F.ranks kk
    let b ← rd F.ranks (kk + 1)
    forN (a * b) (fun _ (s : Nat × Nat) => do
      let n ← rd F.npu s.2
      .ok (s.1 + n, s.2 + 1)) s) (0, 0)

/-- parameterization.c:1395-1450 `ft_param_core_eval_lin`, one univariate function. -/
def ceUni (F : FTP K U) (gev : List K) (m : K) (s : Ac K) : C (Ac K) := do
  let np ← rd F.npu s.onuni
  let t ← dotAt np gev s.onparam F.params s.onparam
  .ok { s with out := s.out + t * m, onparam := s.onparam + np, onuni := s.onuni + 1 }

/-- parameterization.c:1395-1450 `ft_param_core_eval_lin`. -/
def coreEvalLin (F : FTP K U) (core : Nat) (lr rl : Option (List K)) (gev : List K) : C K := do
  let st ← coreStartUni F core
  let s0 : Ac K := ⟨0, [], st.1, st.2, 0⟩
  let r1 ← rd F.ranks core
  let r2 ← rd F.ranks (core + 1)
  if 0 < core ∧ core < F.dim - 1 then do
    let s ← forN r2 (fun col s => forN r1 (fun row (s : Ac K) => do
      let a ← rdp lr row
      let b ← rdp rl col
      ceUni F gev (a * b) s) s) s0
    .ok s.out
  else if core = F.dim - 1 then do
    let s ← forN r1 (fun row (s : Ac K) => do
      let a ← rdp lr row
      ceUni F gev a s) s0
    .ok s.out
  else do
    let s ← forN r2 (fun col (s : Ac K) => do
      let b ← rdp rl col
      ceUni F gev b s) s0
    .ok s.out

/-- parameterization.c:515-526 `ft_param_update_core_params`: only the copy `ftp->params` is kept
here, the update of the function train itself is `function_train_core_update_params` (C-model
`Verif.Ft.Param`). -/
def updateCore (F : FTP K U) (core : Nat) (p : List K) : C (FTP K U) := do
  let st ← coreStart F core
  let n ← rd F.npc core
  let q ← forN n (fun i b => do
    let v ← rd p i
    wr b (st.1 + i) v) F.params
  .ok { F with params := q }

/-- `function_train_core_get_params(ftp->ft, core, guess)` (ft.c): the parameters of one core, read
from the copy `ftp->params`. -/
def coreParams (F : FTP K U) (core : Nat) : C (List K) := do
  let st ← coreStart F core
  let n ← rd F.npc core
  forN n (fun i b => do
    let v ← rd F.params (st.1 + i)
    wr b i v) (List.replicate n 0)

/-- State of the ALS run: the parameterised train, the running products `running_lr[core][point]`,
`running_rl[core][point]`, and a record of the problems handed to the optimizer. -/
structure Als (K U : Type) where
  F : FTP K U
  lr : List (List (List K))
  rl : List (List (List K))
  calls : List (FTP K U × Nat × List (List K) × List (List K))

/-- `mem->running_xx[core][ii]`. -/
def rd2 (a : List (List (List K))) (c i : Nat) : C (List K) := do
  let row ← rd a c
  rd row i

/-- Store to `mem->running_xx[core][ii]`. -/
def wr2 (a : List (List (List K))) (c i : Nat) (v : List K) : C (List (List (List K))) := do
  let row ← rd a c
  let row' ← wr row i v
  wr a c row'

/-- regress.c:522-743 `c3_regression_run_als`: update of `running_rl[c]` for all points from
`running_rl[c+1]`; the last core has no right neighbour. -/
def rlAll (N : Nat) (gevs : List (List K)) (c : Nat) (s : Als K U) : C (Als K U) :=
  forN N (fun ii (s : Als K U) => do
    let g ← rd gevs ii
    let up ← rd2 s.rl c ii
    if c = s.F.dim - 1 then do
      let v ← sweepRLLin s.F c g none up
      let rl ← wr2 s.rl c ii v
      .ok { s with rl := rl }
    else do
      let nb ← rd2 s.rl (c + 1) ii
      let v ← sweepRLLin s.F c g (some nb) up
      let rl ← wr2 s.rl c ii v
      .ok { s with rl := rl }) s

/-- regress.c:522-743 `c3_regression_run_als`: update of `running_lr[c]` for all points from
`running_lr[c-1]`. -/
def lrAll (N : Nat) (gevs : List (List K)) (c : Nat) (s : Als K U) : C (Als K U) :=
  forN N (fun ii (s : Als K U) => do
    let g ← rd gevs ii
    let up ← rd2 s.lr c ii
    if c = 0 then do
      let v ← sweepLRLin s.F c g none up
      let lr ← wr2 s.lr c ii v
      .ok { s with lr := lr }
    else do
      let nb ← rd2 s.lr (c - 1) ii
      let v ← sweepLRLin s.F c g (some nb) up
      let lr ← wr2 s.lr c ii v
      .ok { s with lr := lr }) s

/-- The rows of running products handed to the evaluations of core `c` (regress.c:169-281
`ft_linparam_eval_grad`, type ALS). -/
def alsRows (F : FTP K U) (lr rl : List (List (List K))) (c : Nat) :
    C (List (List K) × List (List K)) :=
  if 0 < c ∧ c < F.dim - 1 then do
    let a ← rd lr (c - 1)
    let b ← rd rl (c + 1)
    .ok (a, b)
  else if c = 0 then do
    let a ← rd lr c
    let b ← rd rl (c + 1)
    .ok (a, b)
  else do
    let a ← rd lr (c - 1)
    let b ← rd rl (c - 1)
    .ok (a, b)

/-- regress.c:522-743 `c3_regression_run_als`: solve for the parameters of core `c`.  The optimizer
is arbitrary: `opt` maps the problem (train, core, running products of all points, initial guess) to
the final parameters.  The problem is recorded in `calls`. -/
def solveCore (opt : FTP K U → Nat → List (List K) → List (List K) → List K → List K) (c : Nat)
    (s : Als K U) : C (Als K U) := do
  let guess ← coreParams s.F c
  let rows ← alsRows s.F s.lr s.rl c
  let F ← updateCore s.F c (opt s.F c rows.1 rows.2 guess)
  .ok { s with F := F, calls := s.calls ++ [(s.F, c, rows.1, rows.2)] }

/-- regress.c:522-743 `c3_regression_run_als`: one step of the forward sweep. -/
def fwdStep (opt : FTP K U → Nat → List (List K) → List (List K) → List K → List K) (N : Nat)
    (gevs : List (List K)) (c : Nat) (s : Als K U) : C (Als K U) := do
  let s ← solveCore opt c s
  if c < s.F.dim - 1 then lrAll N gevs c s else .ok s

/-- regress.c:522-743 `c3_regression_run_als`: one step of the backward sweep. -/
def bwdStep (opt : FTP K U → Nat → List (List K) → List (List K) → List K → List K) (N : Nat)
    (gevs : List (List K)) (jj : Nat) (s : Als K U) : C (Als K U) := do
  let c := s.F.dim - 1 - jj
  let s ← solveCore opt c s
  rlAll N gevs c s

/-- regress.c:522-743 `c3_regression_run_als`: one full sweep.  The backward sweep does not revisit
the last and the first core. -/
def alsSweep (opt : FTP K U → Nat → List (List K) → List (List K) → List K → List K) (N : Nat)
    (gevs : List (List K)) (s : Als K U) : C (Als K U) := do
  let s ← forN s.F.dim (fwdStep opt N gevs) s
  let s ← rlAll N gevs (s.F.dim - 1) s
  forR 1 (s.F.dim - 1) (bwdStep opt N gevs) s

/-- regress.c:522-743 `c3_regression_run_als`: initialisation of the right products,
`for (zz = dim-2; zz > 0; zz--)`.  For `dim = 1` the start value wraps around and the loop reads far
outside the arrays. -/
def alsInit (N : Nat) (gevs : List (List K)) (s : Als K U) : C (Als K U) := do
  let s ← rlAll N gevs (s.F.dim - 1) s
  if s.F.dim < 2 then .error .oob
  else forN (s.F.dim - 2) (fun i s => rlAll N gevs (s.F.dim - 2 - i) s) s

/-- regress.c:522-743 `c3_regression_run_als` with linear structure: initialisation and sweeps; the
number of sweeps is decided by the convergence test `conv` on the trains before and after. -/
def alsRun (opt : FTP K U → Nat → List (List K) → List (List K) → List K → List K)
    (conv : FTP K U → FTP K U → Bool) (N : Nat) (gevs : List (List K)) (maxSweeps : Nat)
    (s : Als K U) : C (Als K U) := do
  let s ← alsInit N gevs s
  let q ← forN maxSweeps (fun _ (q : Als K U × Bool) =>
    if q.2 then .ok q
    else do
      let t ← alsSweep opt N gevs q.1
      .ok (t, conv q.1.F t.F)) (s, false)
  .ok q.1

/-- regress.c:333-364 `ft_param_learning_interface`, type ALS with linear structure and no
gradient asked: the predictions for all points with the parameters `p` in core `c`.  The precomputed
basis values are one list per point instead of one array with stride `nparams`; the indirection
through `ind` is not modelled. -/
def alsEval (N : Nat) (gevs : List (List K)) (F : FTP K U) (c : Nat) (A B : List (List K))
    (p : List K) : C (List K) := do
  let F ← updateCore F c p
  forN N (fun ii ev => do
    let a ← rd A ii
    let b ← rd B ii
    let g ← rd gevs ii
    let v ← coreEvalLin F c (some a) (some b) g
    wr ev ii v) (List.replicate N 0)

/-- regress.c:333-364 `ft_param_learning_interface`, type ALS with linear structure: predictions and
gradients of all points.  The gradients are one list per point instead of one array with stride
`nparams_per_core[c]`. -/
def alsEvalGrad (N : Nat) (gevs : List (List K)) (F : FTP K U) (c : Nat) (A B : List (List K))
    (p : List K) (grads : List (List K)) : C (List K × List (List K)) := do
  let F ← updateCore F c p
  forN N (fun ii (ev : List K × List (List K)) => do
    let a ← rd A ii
    let b ← rd B ii
    let g ← rd gevs ii
    let gr ← rd ev.2 ii
    let v ← coreGradLin F c gr (some a) (some b) g
    let e ← wr ev.1 ii v.1
    let gs ← wr ev.2 ii v.2
    .ok (e, gs)) (List.replicate N 0, grads)

end C3.Sl

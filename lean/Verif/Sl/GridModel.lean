/-
Search of the best regression settings by cross validation (regress.c).
-/
import Verif.Core.Mem
import Mathlib.Algebra.Field.Basic

namespace C3.Sl

/-- regress.c:1710-1712: the names, in the order of `reg_param_names`. -/
def regNames : List String := ["rank", "num_param", "opt_maxiter", "reg_weight"]

/-- regress.c:1714-1724 `get_reg_ind`; the type is `RPDBL` for the last name and `RPUINT` for the
others, a name that is not in the table gives the index `-1`. -/
def regInd (name : String) : Option Nat := regNames.findIdx? (· = name)

/-- A value of a regression parameter (`uval` or `dval`); simplification: values are tagged, in the code
the name decides how the bytes are read, so values are assumed to have the type of their name. -/
inductive Val (K : Type) where
  | u (n : Nat)
  | d (x : K)
deriving DecidableEq

variable {K : Type}

/-- A case (`struct CVCase`): the parameters added so far, with their names. -/
abbrev Case (K : Type) := List (String × Val K)

/-- The grid (`struct CVOptGrid`): capacity `ncvparam` and the parameters with their lists of
values. -/
structure Grid (K : Type) where
  cap : Nat
  pars : List (String × List (Val K))

/-- regress.c:2067-2099 `cv_opt_grid_add_param`: the table of types is read at the index of the name,
also if it is `-1`; names are stored in an array of four. -/
def gridAdd (g : Grid K) (name : String) (vals : List (Val K)) : C (Grid K) :=
  match regInd name with
  | none => .error .oob
  | some _ =>
    if g.pars.length = g.cap then .error .exit
    else if 4 ≤ g.pars.length then .error .oob
    else .ok { g with pars := g.pars ++ [(name, vals)] }

/-- regress.c:1750-1784 `reg_parameter_alloc`, regress.c:1904-1912 `cv_case_add_param`: at most `n`
parameters, known names only. -/
def caseAdd (n : Nat) (c : Case K) (name : String) (v : Val K) : C (Case K) :=
  if c.length = n then .error .exit
  else match regInd name with
  | none => .error .exit
  | some _ => .ok (c ++ [(name, v)])

/-- regress.c:2119-2155 `cv_opt_grid_setup_cases`: the first parameter in the list of parameters, with
value number `ii`. -/
def gridVal (g : Grid K) (p ii : Nat) : C (String × Val K) := do
  let q ← rd g.pars p
  let v ← rd q.2 ii
  .ok (q.1, v)

/-- The number of values of parameter `p`. -/
def gridN (g : Grid K) (p : Nat) : C Nat := do
  let q ← rd g.pars p
  .ok q.2.length

/-- regress.c:2119-2155 `cv_opt_grid_setup_cases`: a new case in front of the list. -/
def pushCase (g : Grid K) (n : Nat) (idx : List Nat) (l : List (Case K)) : C (List (Case K)) := do
  let c ← forN n (fun p c => do
    let ii ← rd idx p
    let q ← gridVal g p ii
    caseAdd n c q.1 q.2) []
  .ok (c :: l)

/-- regress.c:2119-2155 `cv_opt_grid_setup_cases`. -/
def setupCases (g : Grid K) : C (List (Case K)) :=
  if g.pars.length = 1 then do
    let n0 ← gridN g 0
    forN n0 (fun ii l => pushCase g 1 [ii] l) []
  else if g.pars.length = 2 then do
    let n0 ← gridN g 0
    let n1 ← gridN g 1
    forN n0 (fun ii l => forN n1 (fun jj l => pushCase g 2 [ii, jj] l) l) []
  else if g.pars.length = 3 then do
    let n0 ← gridN g 0
    let n1 ← gridN g 1
    let n2 ← gridN g 2
    forN n0 (fun ii l => forN n1 (fun jj l => forN n2 (fun kk l => pushCase g 3 [ii, jj, kk] l) l) l) []
  else .ok []

/-- The settings that cases change: ranks and number of parameters per dimension of the
parameterised train, regularisation weight, maximal number of iterations. -/
structure Settings (K : Type) where
  dim : Nat
  ranks : List Nat
  npar : List Nat
  regw : K
  maxit : Nat

/-- regress.c:1838-1901 `cv_case_process`: the value found for a name; the last one counts. -/
def lookU (name : String) : Case K → Option Nat
  | [] => none
  | (n, v) :: t => match lookU name t with
    | some x => some x
    | none => if n = name then (match v with | .u x => some x | .d _ => none) else none

/-- regress.c:1838-1901 `cv_case_process`, `reg_weight`. -/
def lookD (name : String) : Case K → Option K
  | [] => none
  | (n, v) :: t => match lookD name t with
    | some x => some x
    | none => if n = name then (match v with | .d x => some x | .u _ => none) else none

/-- regress.c:1838-1901 `cv_case_process`: the ranks. -/
def setRanks (s : Settings K) : Option Nat → C (List Nat)
  | some r => do
    let l ← wr s.ranks 0 1
    let l ← wr l s.dim 1
    forR 1 s.dim (fun ii l => wr l ii r) l
  | none => .ok s.ranks

/-- regress.c:1838-1901 `cv_case_process`: the numbers of parameters. -/
def setNpar (s : Settings K) : Option Nat → C (List Nat)
  | some n => forN s.dim (fun ii l => wr l ii n) s.npar
  | none => .ok s.npar

/-- regress.c:1838-1901 `cv_case_process`; resetting the parameters themselves is not modelled. -/
def process (c : Case K) (s : Settings K) : C (Settings K) := do
  let ranks ← setRanks s (lookU "rank" c)
  let npar ← setNpar s (lookU "num_param" c)
  .ok { s with ranks := ranks, npar := npar, regw := (lookD "reg_weight" c).getD s.regw
               maxit := (lookU "opt_maxiter" c).getD s.maxit }

variable [Field K] [LinearOrder K] {S : Type}

/-- regress.c:2161-2213 `cross_validate_grid_opt`: the loop over the cases; the state is (`iter`,
`bestiter`, `besterr`, settings).  `proc` is `cv_case_process`, `cv` is `cross_validate_run`, `fac` is
0.999999999. -/
def gridLoop (fac : K) (proc : Case K → S → C S) (cv : S → C (K × S)) :
    List (Case K) → Nat → Nat → K → S → C (Nat × K × S)
  | [], _, best, err, s => .ok (best, err, s)
  | c :: t, iter, best, err, s => do
    let s ← proc c s
    let q ← cv s
    if q.1 < err * fac then gridLoop fac proc cv t (iter + 1) iter q.1 q.2
    else gridLoop fac proc cv t (iter + 1) best err q.2

/-- regress.c:2161-2213 `cross_validate_grid_opt`; `big` is `DBL_MAX`.  The best case is found again by
following `bestiter` links; with no cases the pointer is NULL. -/
def gridOpt (fac big : K) (proc : Case K → S → C S) (cv : S → C (K × S)) (cases : List (Case K))
    (s : S) : C S := do
  let q ← gridLoop fac proc cv cases 0 0 big s
  match cases[q.1]? with
  | none => .error .null
  | some c => proc c q.2.2

end C3.Sl

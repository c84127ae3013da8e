/-
Initial parameters of a parameterised train: copying the parameters of a constant or linear train into the upper left
corner of every core (lib_superlearn/parameterization.c). The constructors of the template trains are modelled in
Ft/Build.lean, the reading of the parameters of a core in Ft/Param.lean; here a core of a template is its number of rows
and the parameters of its functions in storage order. The random perturbation of the parameters is the argument `init`.
-/
import Verif.Sl.Model

namespace C3.Sl
variable {K U : Type} [CommRing K]

/-- A core of a template train: number of rows, parameters of the functions in storage order. -/
structure Tpl (K : Type) where
  rows : Nat
  fns : List (List K)

/-- The running variables: the parameter array, `onparam`, `onfunc`, `onparam_temp`. -/
structure Cp (K : Type) where
  params : List K
  onparam : Nat
  onfunc : Nat
  ont : Nat

/-- parameterization.c:623-643 (and 769-790): one function of the block; `tp` is the array `temp_params`. Parameters of the
template beyond the number of parameters of the function are neither copied nor skipped in `temp_params`. -/
def addFn (npu : List Nat) (T : Tpl K) (tp : List K) (col row : Nat) (s : Cp K) : C (Cp K) := do
  let f ← rd T.fns (row + col * T.rows)
  let maxloop ← rd npu s.onfunc
  let minloop := if maxloop < f.length then maxloop else f.length
  let ps ← forN minloop (fun ll ps => do
    let v ← rd ps (s.onparam + ll)
    let w ← rd tp (s.ont + ll)
    wr ps (s.onparam + ll) (v + w)) s.params
  pure ⟨ps, s.onparam + maxloop, s.onfunc + 1, s.ont + minloop⟩

/-- parameterization.c:646-649, 651-656 (and 793-803): one function outside the block. -/
def skipFn (npu : List Nat) (s : Cp K) : C (Cp K) := do
  let n ← rd npu s.onfunc
  pure { s with onparam := s.onparam + n, onfunc := s.onfunc + 1 }

/-- parameterization.c:603-659 (and 737-806): one core with `r0` rows and `r1` columns; `b` is the size of the block (1 for
the constant, 2 for the linear function). -/
def copyCore (b : Nat) (npu : List Nat) (r0 r1 : Nat) (T : Tpl K) (s : Cp K) : C (Cp K) := do
  let s ← forN (min b r1) (fun col s => do
    let s ← forN (min b r0) (addFn npu T T.fns.flatten col) s
    forR (min b r0) r0 (fun _ s => skipFn npu s) s) { s with ont := 0 }
  forR (min b r1) r1 (fun _ s => forN r0 (fun _ s => skipFn npu s) s) s

/-- The loop over the cores; `tpl k` is core `k` of the template. -/
def guess (b : Nat) (F : FTP K U) (tpl : Nat → Tpl K) (init : List K) : C (List K) := do
  let s ← forN F.dim (fun ii s => do
    let r1 ← rd F.ranks (ii + 1)
    let r0 ← rd F.ranks ii
    copyCore b F.npu r0 r1 (tpl ii) s) ⟨init, 0, 0, 0⟩
  pure s.params

/-- parameterization.c:584-664 `ft_param_create_constant`: `cst` is the constant train. -/
def guessConst (F : FTP K U) (cst : Nat → Tpl K) (init : List K) : C (List K) := guess 1 F cst init

/-- parameterization.c:682-823 `ft_param_create_from_lin_ls`: the template of a core is the linear train, unless the block is
a single function, then the constant train. The least squares solution enters through the two template trains. -/
def guessLin (F : FTP K U) (lin cst : Nat → Tpl K) (init : List K) : C (List K) :=
  guess 2 F (fun k => if min 2 (F.ranks.getD (k + 1) 0) = 1 ∧ min 2 (F.ranks.getD k 0) = 1 then cst k else lin k) init

/-- parameterization.c:690-699: the matrix of the regression, one column per variable and a column of ones. -/
def lsMat (d N : Nat) (x : List K) : C (List K) := do
  let A ← forN d (fun ii A => forN N (fun jj A => do
    let v ← rd x (jj * d + ii)
    wr A (ii * N + jj) v) A) (List.replicate (N * (d + 1)) 0)
  forN N (fun jj A => wr A (d * N + jj) 1) A

end C3.Sl

/-
One-dimensional regression (c3/lib_funcs/functions.c): options, cost functions with gradients, and the driver.
The function class behind `struct GenericFunction` is given by its operations `Ops`; the optimizer is an argument.
-/
import Verif.Core.Mem
import Verif.Core.Sum
import Verif.Poly.Integ
import Mathlib.Data.Real.Basic

namespace C3.Reg
open C3.Poly (Decay)

/-- The operations of a function class used by the regression code (generic_function_*); `pgrad` is the parameter gradient at one
point, written into a buffer. -/
structure Ops (F : Type) where
  create : Nat → List ℝ → C F
  update : F → Nat → List ℝ → C F
  eval : F → ℝ → C ℝ
  pgrad : F → ℝ → List ℝ → C (List ℝ)
  inner : F → F → C ℝ
  sqGrad : F → ℝ → List ℝ → C (List ℝ)
  deriv : F → C F
  rkhs : F → Decay → ℝ → C ℝ
  rkhsGrad : F → ℝ → Decay → ℝ → List ℝ → C (List ℝ)

/-- functions.h:65 `enum approx_type`, any other integer as `other`. -/
inductive AType | parametric | nonparametric | other
  deriving DecidableEq

/-- functions.h:68 `enum regress_type`, any other integer as `other`. -/
inductive RType | ls | rls2 | rlsd2 | rlsrkhs | rls1 | other
  deriving DecidableEq

/-- functions.c:91-122 `struct Regress1DOpts`. NULL pointers are `none`; `form` tells that the function class was set, so that the
operations can be called; `xs`, `ys` are the caller's arrays. -/
structure Opts (F : Type) where
  atype : AType
  rtype : RType
  form : Bool
  regSet : Bool
  lam : ℝ
  decay : Decay
  decayPar : ℝ
  N : Nat
  xs : List ℝ
  ys : List ℝ
  nparam : Nat
  init : Option (List ℝ)
  gf : Option F
  eval : List ℝ
  grad : Option (List ℝ)
  resid : List ℝ

variable {F : Type}

/-- functions.c:2273-2306 `regress_1d_opts_create`. -/
def optsCreate (atype : AType) (rtype : RType) (N : Nat) (xs ys : List ℝ) : Opts F :=
  ⟨atype, rtype, false, false, 0, .none, 1, N, xs, ys, 0, none, none, List.replicate N 0, none, List.replicate N 0⟩

/-- functions.c:2329-2340 `regress_1d_opts_set_parametric_form`; `np` is the number of parameters of the approximation options. -/
def setForm (o : Opts F) (np : Nat) : Opts F :=
  { o with form := true, nparam := np, grad := some (List.replicate np 0) }

/-- functions.c:2345-2352 `regress_1d_opts_set_initial_parameters`. -/
def setInit (ops : Ops F) (o : Opts F) (param : List ℝ) : C (Opts F) :=
  if o.form then do
    let g ← ops.create o.nparam param
    pure { o with init := some param, gf := some g }
  else .error .ub

/-- functions.c:2357-2363 `regress_1d_opts_set_regularization_penalty`. -/
def setPenalty (o : Opts F) (lam : ℝ) : Opts F := { o with regSet := true, lam := lam }

open Classical in
/-- functions.c:2368-2401 `regress_1d_opts_set_RKHS_decay_rate`; `tol` is 1e-15. -/
noncomputable def setDecay (tol : ℝ) (o : Opts F) (d : Decay) (lam : ℝ) : C (Opts F) :=
  match d with
  | .alg => if lam < tol ∨ lam > 1 then .error .exit else .ok { o with decay := d, decayPar := lam }
  | .exp => if lam < 0 then .error .exit else .ok { o with decay := d, decayPar := lam }
  | .none => .error .exit

/-- functions.c:2504-2506: evaluation at the data points. -/
def evalLoop (ops : Ops F) (g : F) (N : Nat) (xs ev : List ℝ) : C (List ℝ) :=
  forN N (fun ii ev => do
    let x ← rd xs ii
    let v ← ops.eval g x
    wr ev ii v) ev

/-- functions.c:2509-2513: residuals and sum of squares. -/
def residLoop (N : Nat) (ys ev resid : List ℝ) : C (ℝ × List ℝ) :=
  forN N (fun ii (s : ℝ × List ℝ) => do
    let y ← rd ys ii
    let e ← rd ev ii
    let r ← wr s.2 ii (y - e)
    let v ← rd r ii
    pure (s.1 + v * v, r)) (0, resid)

/-- functions.c:2527-2529: one data point added to the gradient. -/
def addPoint (dim : Nat) (r : ℝ) (pg grad : List ℝ) : C (List ℝ) :=
  forN dim (fun ii grad => do
    let g ← rd grad ii
    let p ← rd pg ii
    wr grad ii (g + r * (-1) * p)) grad

/-- functions.c:2518-2530: the gradient; `buf` is `opts->grad`. -/
def gradLoop (ops : Ops F) (g : F) (dim N : Nat) (xs resid buf grad : List ℝ) : C (List ℝ × List ℝ) := do
  let grad ← forN dim (fun ii grad => wr grad ii 0) grad
  forN N (fun jj (s : List ℝ × List ℝ) => do
    let x ← rd xs jj
    let buf ← ops.pgrad g x s.1
    let r ← rd resid jj
    let grad ← addPoint dim r buf s.2
    pure (buf, grad)) (buf, grad)

/-- A pointer that must not be NULL. -/
def deref {α : Type} : Option α → C α
  | some a => .ok a
  | none => .error .null

/-- functions.c:2489-2536 `param_LSregress_cost`: cost, gradient (if asked for) and the options afterwards. -/
noncomputable def lsCost (ops : Ops F) (o : Opts F) (dim : Nat) (param : List ℝ) (grad : Option (List ℝ)) : C (ℝ × Option (List ℝ) × Opts F) := do
  cassert (decide (o.nparam = dim))
  cassert o.gf.isSome
  let g ← deref o.gf
  let g ← ops.update g dim param
  let ev ← evalLoop ops g o.N o.xs o.eval
  let s ← residLoop o.N o.ys ev o.resid
  match grad with
  | none => pure (s.1 * (1 / 2), none, { o with gf := some g, eval := ev, resid := s.2 })
  | some gr => do
    let buf ← deref o.grad
    let t ← gradLoop ops g dim o.N o.xs s.2 buf gr
    pure (s.1 * (1 / 2), some t.2, { o with gf := some g, eval := ev, resid := s.2, grad := some t.1 })

/-- `if (grad != NULL) ...` of the regularized costs. -/
def addGrad (f : List ℝ → C (List ℝ)) : Option (List ℝ) → C (Option (List ℝ))
  | none => .ok none
  | some g => do
    let g ← f g
    pure (some g)

/-- functions.c:2541-2560 `param_RLS2regress_cost`. -/
noncomputable def rls2Cost (ops : Ops F) (o : Opts F) (dim : Nat) (param : List ℝ) (grad : Option (List ℝ)) : C (ℝ × Option (List ℝ) × Opts F) := do
  let s ← lsCost ops o dim param grad
  let g ← deref s.2.2.gf
  let r ← ops.inner g g
  let gr ← addGrad (ops.sqGrad g (1 / 2 * o.lam)) s.2.1
  pure (s.1 + 1 / 2 * o.lam * r, gr, s.2.2)

/-- functions.c:2566-2590 `param_RLSD2regress_cost`: the gradient of the penalty is taken with respect to the parameters of the second
derivative. -/
noncomputable def rlsd2Cost (ops : Ops F) (o : Opts F) (dim : Nat) (param : List ℝ) (grad : Option (List ℝ)) : C (ℝ × Option (List ℝ) × Opts F) := do
  let s ← lsCost ops o dim param grad
  let g ← deref s.2.2.gf
  let g1 ← ops.deriv g
  let g2 ← ops.deriv g1
  let r ← ops.inner g2 g2
  let gr ← addGrad (ops.sqGrad g2 (1 / 2 * o.lam)) s.2.1
  pure (s.1 + 1 / 2 * o.lam * r, gr, s.2.2)

/-- functions.c:2595-2620 `param_RLSRKHSregress_cost`: the penalty enters the cost with factor λ/2 and the gradient with factor λ. -/
noncomputable def rkhsCost (ops : Ops F) (o : Opts F) (dim : Nat) (param : List ℝ) (grad : Option (List ℝ)) : C (ℝ × Option (List ℝ) × Opts F) := do
  let s ← lsCost ops o dim param grad
  let g ← deref s.2.2.gf
  let r ← ops.rkhs g o.decay o.decayPar
  let gr ← addGrad (ops.rkhsGrad g o.lam o.decay o.decayPar) s.2.1
  pure (s.1 + 1 / 2 * o.lam * r, gr, s.2.2)

/-- A cost function as registered with the optimizer. -/
abbrev Cost (F : Type) := Ops F → Opts F → Nat → List ℝ → Option (List ℝ) → C (ℝ × Option (List ℝ) × Opts F)

/-- functions.c:367-412: the objective for each type of regression; `none` where NULL is returned. -/
noncomputable def objective (o : Opts F) : Option (Cost F) :=
  match o.rtype with
  | .ls => some lsCost
  | .rls2 => if o.regSet = false then none else some rls2Cost
  | .rlsd2 => if o.regSet = false then none else some rlsd2Cost
  | .rlsrkhs => if o.regSet = false then none else if o.decay = .none then none else some rkhsCost
  | .rls1 => none
  | .other => none

/-- functions.c:354-428 `generic_function_regress1d`. `minimize` stands for `c3opt_minimize`: given the objective and the starting point it
leaves parameters in place and returns a code. The result is the function (`none` for NULL) and the code, if it was set. -/
noncomputable def regress1d (ops : Ops F) (o : Opts F) (minimize : Cost F → List ℝ → C (Int × List ℝ)) : C (Option F × Option Int) :=
  match o.atype with
  | .parametric => do
    let start ← match o.init with
      | some p => forN o.nparam (fun ii s => do
          let v ← rd p ii
          wr s ii v) (List.replicate o.nparam 0)
      | none => if o.nparam = 0 then pure [] else .error .null
    match objective o with
    | none => pure (none, none)
    | some cost => do
      let r ← minimize cost start
      let f ← if o.form then ops.create o.nparam r.2 else .error .ub
      pure (some f, some r.1)
  | .nonparametric => pure (none, none)
  | .other => pure (none, none)

end C3.Reg

/-
Optimizers of c3/lib_optimization/optimization.c: projected moves, the three line searches, batch gradient descent and brute force.
Numbers are elements of an ordered field, the C `sqrt` is the argument `sq`. The objective is a function of the point (the user
argument `farg` is fixed and the callback has no memory), so NaN and infinite values do not occur. Printing and the storing of traces
(`store_func`, `store_grad`, `store_x` = 0) are not modelled.
-/
import Verif.Core.Mem
import Verif.Core.Sum
import Mathlib.Algebra.Order.Field.Basic

namespace C3.Opt

/-- The objective of `c3opt_add_objective` (optimization.c:936-943): its value and the gradient it writes. -/
structure Obj (K : Type) where
  f : List K → K
  g : List K → List K

/-- Counters `nevals`, `ngvals` of `struct c3Opt` (optimization.c:265-267) and, as a ghost, all points at which the objective was
called, newest first. -/
structure Tr (K : Type) where
  nev : Nat
  ngv : Nat
  pts : List (List K)
  deriving DecidableEq

/-- optimization.c:966-991 `c3opt_eval` without gradient. -/
def Tr.ev {K : Type} (t : Tr K) (x : List K) : Tr K := ⟨t.nev + 1, t.ngv, x :: t.pts⟩

/-- optimization.c:966-991 `c3opt_eval` with gradient. -/
def Tr.evg {K : Type} (t : Tr K) (x : List K) : Tr K := ⟨t.nev + 1, t.ngv + 1, x :: t.pts⟩

/-- optimization.h `enum c3opt_ls_alg`. -/
inductive LsAlg | backtrack | strongwolfe | weakwolfe
  deriving DecidableEq

/-- The fields of `struct c3Opt` and `struct c3LS` read by the optimizers (optimization.c:57-66, 239-285). The bounds are always
allocated (c3opt_alloc, c3opt_set_nvars), so `lb == NULL` is not modelled. -/
structure Par (K : Type) where
  d : Nat
  lb : List K
  ub : List K
  alg : LsAlg
  alpha : K
  beta : K
  lsmax : Nat
  maxiter : Nat
  absxtol : K
  relftol : K
  gtol : K

/-- What a line search leaves behind: the returned number, `newx`, `*newf`, the gradient buffer, `*info` and the counters. -/
structure Ls (K : Type) where
  ret : K
  newx : List K
  newf : K
  grad : List K
  info : Int
  tr : Tr K
  deriving DecidableEq

variable {K : Type} [Field K] [LinearOrder K]

/-- optimization.c:1128-1143 `c3opt_ls_x_move`: copy, add `t*dir`, project every coordinate. -/
def xMove (d : Nat) (t : K) (dir x newx lb ub : List K) : C (List K) := do
  let b ← forN d (fun ii b => do
    let v ← rd x ii
    wr b ii v) newx
  let b ← forN d (fun ii b => do
    let v ← rd b ii
    let w ← rd dir ii
    wr b ii (v + t * w)) b
  forN d (fun ii b => do
    let v ← rd b ii
    let l ← rd lb ii
    if v ≤ l then wr b ii l
    else do
      let u ← rd ub ii
      if v ≥ u then wr b ii u else pure b) b

/-- linalg.c:493-504 `norm2diff`. -/
def norm2diff (sq : K → K) (a b : List K) (n : Nat) : C K := do
  let s ← forN n (fun ii s => do
    let u ← rd a ii
    let v ← rd b ii
    pure (s + (u - v) ^ 2)) 0
  pure (sq s)

/-- The loop over the coordinates at optimization.c:1186-1197, 1319-1330 and 1504-1515: true if the starting point violates the bounds. -/
def violates (d : Nat) (x lb ub : List K) : C Bool :=
  forN d (fun ii bad =>
    if bad then pure true
    else do
      let v ← rd x ii
      let l ← rd lb ii
      if v < l then pure true
      else do
        let u ← rd ub ii
        pure (decide (v > u))) false

/-- The test of the line search parameters at optimization.c:1176-1185 (and 1309-1318, 1494-1503). The test of `beta` is written with
`&&`, so that no number fails it. -/
def badPar (alpha beta : K) : Option Int :=
  if alpha ≤ 0 ∨ alpha ≥ 1 / 2 then some (-1)
  else if beta ≤ 0 ∧ beta ≥ 1 then some (-2)
  else none

/-- The loop of `c3opt_ls_box`, optimization.c:1223-1255. -/
def lsBoxLoop (sq : K → K) (o : Obj K) (p : Par K) (x dir : List K) (fx dg : K) :
    Nat → Nat → K → K → List K → K → Tr K → C (K × List K × K × Int × Tr K)
  | 0, _, _, _, _, _, _ => .error .diverge
  | fuel + 1, iter, t, chk, newx, newf, tr =>
    if newf > chk then
      if iter ≥ p.lsmax then pure (t, newx, newf, 1, tr)
      else do
        let t := if iter > 1 then p.beta * t else t
        let chk := fx + p.alpha * t * dg
        let newx ← xMove p.d t dir x newx p.lb p.ub
        let diff ← norm2diff sq newx x p.d
        if diff < p.absxtol then pure (t, newx, o.f newx, 0, tr.ev newx)
        else lsBoxLoop sq o p x dir fx dg fuel (iter + 1) t chk newx (o.f newx) (tr.ev newx)
    else pure (t, newx, newf, 0, tr)

/-- optimization.c:1163-1258 `c3opt_ls_box`. The value of `t` computed from `prev_eval` (1207-1213) is overwritten by `t = 1.0` and
left out. -/
def lsBox (sq : K → K) (o : Obj K) (p : Par K) (x : List K) (fx : K) (grad dir newx : List K) (newf : K) (tr : Tr K) : C (Ls K) :=
  match badPar p.alpha p.beta with
  | some e => pure ⟨0, newx, newf, grad, e, tr⟩
  | none => do
    let bad ← violates p.d x p.lb p.ub
    if bad then pure ⟨0, newx, newf, grad, -3, tr⟩
    else do
      let dg ← ddot p.d grad 1 dir 1
      let newx ← xMove p.d 1 dir x newx p.lb p.ub
      let r ← lsBoxLoop sq o p x dir fx dg (p.lsmax + 1) 1 1 (fx + p.alpha * 1 * dg) newx (o.f newx) (tr.ev newx)
      pure ⟨r.1 * p.alpha, r.2.1, r.2.2.1, grad, r.2.2.2.1, r.2.2.2.2⟩

/-- State of the loop of `c3opt_ls_wolfe_bisect`. -/
structure Wst (K : Type) where
  iter : Nat
  t : K
  tmin : K
  tmax : K
  newx : List K
  newf : K
  grad : List K
  tr : Tr K

/-- The loop of `c3opt_ls_wolfe_bisect`, optimization.c:1350-1396. -/
def wolfeLoop (o : Obj K) (p : Par K) (x dir : List K) (fx dg : K) : Nat → Wst K → C (Wst K)
  | 0, _ => .error .diverge
  | fuel + 1, s =>
    if s.iter < p.lsmax then do
      let newx ← xMove p.d s.t dir x s.newx p.lb p.ub
      let fval := o.f newx
      let tr := s.tr.ev newx
      if fval > fx + p.alpha * s.t * dg then
        wolfeLoop o p x dir fx dg fuel
          { s with iter := s.iter + 1, tmax := s.t, t := 1 / 2 * (s.tmin + s.t), newx := newx, tr := tr }
      else do
        let grad := o.g newx
        let tr := tr.evg newx
        let dg2 ← ddot p.d grad 1 dir 1
        if dg2 < p.beta * dg then
          wolfeLoop o p x dir fx dg fuel
            { s with iter := s.iter + 1, tmin := s.t, t := if |s.tmax| < 1 / 10 ^ 15 then 2 * s.t else 1 / 2 * (s.t + s.tmax),
                     newx := newx, grad := grad, tr := tr }
        else pure { s with newx := newx, newf := fval, grad := grad, tr := tr }
    else pure s

/-- optimization.c:1281-1407 `c3opt_ls_wolfe_bisect`. -/
def lsWolfe (o : Obj K) (p : Par K) (x : List K) (fx : K) (grad dir newx : List K) (newf : K) (tr : Tr K) : C (Ls K) := do
  let dg ← ddot p.d grad 1 dir 1
  match badPar p.alpha p.beta with
  | some e => pure ⟨0, newx, newf, grad, e, tr⟩
  | none => do
    let bad ← violates p.d x p.lb p.ub
    if bad then pure ⟨0, newx, newf, grad, -3, tr⟩
    else if dg > 1 / 10 ^ 15 then do
      let b ← forN p.d (fun ii b => do
        let v ← rd x ii
        wr b ii v) newx
      pure ⟨0, b, fx, grad, -4, tr⟩
    else do
      let s ← wolfeLoop o p x dir fx dg (p.lsmax + 1) ⟨1, 1, 0, 0, newx, newf, grad, tr⟩
      if s.iter = p.lsmax then
        pure ⟨s.t * p.alpha, s.newx, o.f s.newx, o.g s.newx, 1, s.tr.evg s.newx⟩
      else pure ⟨s.t * p.alpha, s.newx, s.newf, s.grad, 0, s.tr⟩

/-- What `c3opt_ls_zoom` leaves behind: the returned step, `newx`, `*fval`, the gradient buffer and the counters. -/
structure Zst (K : Type) where
  t : K
  newx : List K
  fval : K
  grad : List K
  tr : Tr K

/-- optimization.c:1412-1467 `c3opt_ls_zoom`; `tlow` is the value returned when the interval becomes shorter than 1e-20. The number of
passes is not bounded in the code; out of fuel is `Err.diverge`. -/
def zoom (o : Obj K) (p : Par K) (tlow : K) (x dir : List K) (fx dg : K) :
    Nat → K → K → K → List K → K → List K → Tr K → C (Zst K)
  | 0, _, _, _, _, _, _, _ => .error .diverge
  | fuel + 1, tl, fl, th, newx, fval, grad, tr =>
    if |th - tl| ≥ 1 / 10 ^ 20 then do
      let t := (tl + th) / 2
      let newx ← xMove p.d t dir x newx p.lb p.ub
      let fcurr := o.f newx
      let grad := o.g newx
      let tr := tr.evg newx
      if fcurr > fx + p.alpha * t * dg ∨ fcurr ≥ fl then
        zoom o p tlow x dir fx dg fuel tl fl t newx fcurr grad tr
      else do
        let dg2 ← ddot p.d grad 1 dir 1
        if |dg2| ≤ -p.beta * dg then pure ⟨t, newx, fcurr, grad, tr⟩
        else zoom o p tlow x dir fx dg fuel t fcurr (if dg2 * (th - tl) ≥ 0 then tl else th) newx fcurr grad tr
    else pure ⟨tlow, newx, fval, grad, tr⟩

/-- The loop of `c3opt_ls_strong_wolfe`, optimization.c:1546-1596; `zf` is the fuel of the inner zoom. -/
def strongLoop (sq : K → K) (o : Obj K) (p : Par K) (x dir : List K) (fx dg : K) (zf : Nat) :
    Nat → Nat → K → K → K → List K → K → List K → Tr K → C (Ls K)
  | 0, _, _, _, _, _, _, _, _ => .error .diverge
  | fuel + 1, iter, t, tprev, fprev, newx, newf, grad, tr =>
    if iter ≤ p.lsmax then do
      let newx ← xMove p.d t dir x newx p.lb p.ub
      let newf := o.f newx
      let grad := o.g newx
      let tr := tr.evg newx
      let diff ← norm2diff sq newx x p.d
      if diff < p.absxtol then pure ⟨t * p.alpha, newx, newf, grad, 0, tr⟩
      else if newf > fx + p.alpha * t * dg ∨ (newf ≥ fprev ∧ iter > 1) then do
        if fprev > newf then cassert (decide (fprev < newf))
        let z ← zoom o p tprev x dir fx dg zf tprev fprev t newx newf grad tr
        pure ⟨z.t * p.alpha, z.newx, z.fval, z.grad, 0, z.tr⟩
      else do
        let dg2 ← ddot p.d grad 1 dir 1
        if |dg2| ≤ -p.beta * dg then pure ⟨t * p.alpha, newx, newf, grad, 0, tr⟩
        else if dg2 ≥ 0 then do
          cassert (decide (newf < fprev))
          let z ← zoom o p t x dir fx dg zf t newf tprev newx newf grad tr
          pure ⟨z.t * p.alpha, z.newx, z.fval, z.grad, 0, z.tr⟩
        else strongLoop sq o p x dir fx dg zf fuel (iter + 1) (t + 1 / 2 * (1 - t)) t newf newx newf grad tr
    else pure ⟨t * p.alpha, newx, newf, grad, 1, tr⟩

/-- optimization.c:1489-1604 `c3opt_ls_strong_wolfe`. The value of `t` computed from `prev_eval` is overwritten by `t = 0.1` and left
out; `tmax` is 1. -/
def lsStrong (sq : K → K) (zf : Nat) (o : Obj K) (p : Par K) (x : List K) (fx : K) (grad dir newx : List K) (newf : K) (tr : Tr K) :
    C (Ls K) :=
  match badPar p.alpha p.beta with
  | some e => pure ⟨0, newx, newf, grad, e, tr⟩
  | none => do
    let bad ← violates p.d x p.lb p.ub
    if bad then pure ⟨0, newx, newf, grad, -3, tr⟩
    else do
      let dg ← ddot p.d grad 1 dir 1
      if dg > 1 / 10 ^ 15 then do
        let b ← forN p.d (fun ii b => do
          let v ← rd x ii
          wr b ii v) newx
        pure ⟨0, b, fx, grad, -4, tr⟩
      else strongLoop sq o p x dir fx dg zf (p.lsmax + 1) 1 (1 / 10) 0 fx newx newf grad tr

/-- optimization.h:50-59 the return codes used by the optimizers. -/
inductive Ret | maxiter | success | ftol | xtol | gtol
  deriving DecidableEq

/-- The loop setting `onbound`, optimization.c:2889-2895 (also 2104-2110 and 2705-2711). -/
def onBound (d : Nat) (x lb ub : List K) : C Bool :=
  forN d (fun ii b =>
    if b then pure true
    else do
      let v ← rd x ii
      let l ← rd lb ii
      if v ≤ l then pure true
      else do
        let u ← rd ub ii
        pure (decide (v ≥ u))) false

/-- optimization.c:2896-2899 the change of the objective, relative unless the old value is tiny. -/
def fdiff (fval fold : K) : K := if |fold| > 1 / 10 ^ 10 then |fval - fold| / |fold| else |fval - fold|

/-- optimization.c:2901-2931 the tests for convergence of `c3_opt_gradient`; `none` is `converged = 0`. -/
def gradTest (p : Par K) (onbound : Bool) (eta diff xdiff : K) : Option Ret :=
  if onbound then
    if diff < p.relftol then some .ftol
    else if xdiff < p.absxtol then some .xtol
    else none
  else if eta < p.gtol ^ 2 then some .gtol
  else if diff < p.relftol then some .ftol
  else if xdiff < p.absxtol then some .xtol
  else none

/-- Result of an optimizer: final point, `*fval`, gradient buffer, return code, `niters`, counters, and as a ghost the `info` of all line
searches, newest first. -/
structure Res (K : Type) where
  x : List K
  fval : K
  grad : List K
  ret : Ret
  niters : Nat
  tr : Tr K
  infos : List Int
  deriving DecidableEq

/-- The call of the line search at optimization.c:2850-2869; with backtracking the objective and gradient are evaluated again. -/
def gradSearch (sq : K → K) (zf : Nat) (o : Obj K) (p : Par K) (cur : List K) (fold : K) (grad dir x : List K) (tr : Tr K) :
    C (Ls K) :=
  match p.alg with
  | .backtrack => do
    let r ← lsBox sq o p cur fold grad dir x fold tr
    pure ⟨r.ret, r.newx, o.f r.newx, o.g r.newx, r.info, r.tr.evg r.newx⟩
  | .strongwolfe => lsStrong sq zf o p cur fold grad dir x fold tr
  | .weakwolfe => lsWolfe o p cur fold grad dir x fold tr

/-- The loop of `c3_opt_gradient`, optimization.c:2842-2949. The workspace is the two buffers `cur`, `dir`. -/
def gradLoop (sq : K → K) (zf : Nat) (o : Obj K) (p : Par K) :
    Nat → Nat → List K → K → List K → List K → List K → Nat → Tr K → List Int → C (Res K)
  | 0, _, _, _, _, _, _, _, _, _ => .error .diverge
  | fuel + 1, iter, x, fval, grad, cur, dir, niters, tr, infos => do
    let cur ← forN p.d (fun ii b => do
      let v ← rd x ii
      wr b ii v) cur
    let dir ← forN p.d (fun ii b => do
      let v ← rd grad ii
      wr b ii (-v)) dir
    let r ← gradSearch sq zf o p cur fval grad dir x tr
    if iter + 1 > p.maxiter then pure ⟨r.newx, r.newf, r.grad, .maxiter, niters + 1, r.tr, r.info :: infos⟩
    else do
      let eta ← ddot p.d r.grad 1 r.grad 1
      let onb ← onBound p.d r.newx p.lb p.ub
      let xdiff ← norm2diff sq r.newx cur p.d
      match gradTest p onb eta (fdiff r.newf fval) xdiff with
      | some c => pure ⟨r.newx, r.newf, r.grad, c, niters + 1, r.tr, r.info :: infos⟩
      | none => gradLoop sq zf o p fuel (iter + 1) r.newx r.newf r.grad cur dir (niters + 1) r.tr (r.info :: infos)

/-- optimization.c:2791-2951 `c3_opt_gradient` with the gradient buffer allocated by `c3opt_minimize` (3005-3010); the workspace has
`2*d` entries with arbitrary content (`cur`, `dir`). -/
def optGradient (sq : K → K) (zf : Nat) (o : Obj K) (p : Par K) (x cur dir : List K) : C (Res K) := do
  let tr := (Tr.mk 0 0 []).evg x
  let s ← ddot p.d (o.g x) 1 (o.g x) 1
  if sq s < p.gtol then pure ⟨x, o.f x, o.g x, .gtol, 1, tr, []⟩
  else gradLoop sq zf o p (p.maxiter + 1) 1 x (o.f x) (o.g x) cur dir 1 tr []

/-- Reading the `ii`-th location of the brute force table: the objective reads `d` entries from `workspace + ii*d`. -/
def loc (ws : List K) (d ii : Nat) : C (List K) :=
  forN d (fun j l => do
    let v ← rd ws (ii * d + j)
    pure (l ++ [v])) []

/-- optimization.c:3011-3025 the branch `BRUTEFORCE` of `c3opt_minimize`: value and final point. `ws` is the table of
`c3opt_set_brute_force_vals`, `none` if it was never set. -/
def bruteForce (o : Obj K) (d nlocs : Nat) (ws : Option (List K)) (start : List K) : C (K × List K) :=
  match ws with
  | none => .error .null
  | some ws => do
    let x ← loc ws d 0
    let r ← forR 1 nlocs (fun ii (s : K × Nat) => do
      let y ← loc ws d ii
      let v := o.f y
      pure (if v < s.1 then (v, ii) else s)) (o.f x, 0)
    let st ← forN d (fun ii b => do
      let v ← rd ws (r.2 * d + ii)
      wr b ii v) start
    pure (r.1, st)

end C3.Opt

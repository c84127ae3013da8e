/-
The standalone optimizers of c3/lib_optimization/optimization.c (lines 3060-3848): two backtracking line searches, gradient descent,
projected gradient descent, Newton's method, damped Newton and damped BFGS on a box. Numbers are elements of an ordered field, the C `sqrt`
is the argument `sq`; the objective and its derivatives are functions of the point (the user arguments are fixed and the callbacks have
no memory), so NaN and infinite values do not occur. Printing is not modelled. LAPACK's `dgesv_` is an argument.
-/
import Verif.Opt.BfgsModel

namespace C3.Opt

/-- The callbacks of the standalone optimizers: the objective, and the return code and buffer content of the gradient and of the Hessian
(column-major). -/
structure Cb (K : Type) where
  f : List K → K
  g : List K → Int × List K
  h : List K → Int × List K

/-- What a standalone line search leaves behind: the returned number, `newx`, `*fnx`, `*info`, and as a ghost the points at which the
objective was called so far, newest first. -/
structure BtR (K : Type) where
  ret : K
  newx : List K
  fnx : K
  info : Int
  pts : List (List K)
  deriving DecidableEq

/-- What a standalone optimizer leaves behind: final point, `*fval`, gradient buffer, return code, the points at which the objective was
called (newest first). -/
structure StRes (K : Type) where
  x : List K
  fval : K
  grad : List K
  ret : Int
  pts : List (List K)
  deriving DecidableEq

variable {K : Type} [Field K] [LinearOrder K]

/-- optimization.c:3686-3692, 3708-3709: `memmove(newx,x)` and `cblas_daxpy(d,t,p,1,newx,1)`. -/
def moveFree (d : Nat) (x p : List K) (t : K) (newx : List K) : C (List K) := do
  let b ← dcopy d x newx
  daxpy d t p b

/-- optimization.c:3797-3804, 3832-3839: the loop that puts every coordinate back between its bounds, lower bound first. -/
def clipTo (d : Nat) (lb ub b : List K) : C (List K) :=
  forN d (fun ii b => do
    let v ← rd b ii
    let l ← rd lb ii
    let b ← (if v < l then wr b ii l else pure b)
    let v ← rd b ii
    let u ← rd ub ii
    if v > u then wr b ii u else pure b) b

/-- `moveFree` followed by `clipTo` (optimization.c:3781-3804, 3827-3839). -/
def moveBox (d : Nat) (lb ub x p : List K) (t : K) (newx : List K) : C (List K) := do
  let b ← moveFree d x p t newx
  clipTo d lb ub b

/-- The loop of both line searches, optimization.c:3698-3713 and 3811-3844; `mv t b` is the move with scaling `t` into the buffer `b`. -/
def btLoop (f : List K → K) (mv : K → List K → C (List K)) (fx dg alpha beta : K) (maxiter : Nat) :
    Nat → Nat → K → K → List K → K → List (List K) → C (BtR K)
  | 0, _, _, _, _, _, _ => .error .diverge
  | fuel + 1, iter, t, chk, newx, fnx, pts =>
    if fnx > chk then
      if iter ≥ maxiter then pure ⟨t, newx, fnx, 1, pts⟩
      else do
        let newx ← mv (beta * t) newx
        btLoop f mv fx dg alpha beta maxiter fuel (iter + 1) (beta * t) (fx + alpha * (beta * t) * dg) newx (f newx) (newx :: pts)
    else pure ⟨t, newx, fnx, 0, pts⟩

/-- optimization.c:3665-3715 `backtrack_line_search`. The test of the parameters is `badPar`, as in the line searches of `c3Opt`. -/
def backtrack (f : List K → K) (d : Nat) (x : List K) (fx : K) (p newx : List K) (fnx : K) (grad : List K) (alpha beta : K)
    (maxiter : Nat) (pts : List (List K)) : C (BtR K) :=
  match badPar alpha beta with
  | some e => pure ⟨0, newx, fnx, e, pts⟩
  | none => do
    let dg ← ddot d grad 1 p 1
    let newx ← moveFree d x p 1 newx
    btLoop f (moveFree d x p) fx dg alpha beta maxiter (maxiter + 1) 2 1 (fx + alpha * 1 * dg) newx (f newx) (newx :: pts)

/-- optimization.c:3745-3847 `backtrack_line_search_bc`; it returns `t*alpha`. -/
def backtrackBc (f : List K → K) (d : Nat) (lb ub x : List K) (fx : K) (p newx : List K) (fnx : K) (grad : List K) (alpha beta : K)
    (maxiter : Nat) (pts : List (List K)) : C (BtR K) :=
  match badPar alpha beta with
  | some e => pure ⟨0, newx, fnx, e, pts⟩
  | none => do
    let bad ← violates d x lb ub
    if bad then pure ⟨0, newx, fnx, -3, pts⟩
    else do
      let dg ← ddot d grad 1 p 1
      let newx ← moveBox d lb ub x p 1 newx
      let r ← btLoop f (moveBox d lb ub x p) fx dg alpha beta maxiter (maxiter + 1) 2 1 (fx + alpha * 1 * dg) newx (f newx) (newx :: pts)
      pure { r with ret := r.ret * alpha }

/-- Arguments of an optimizer that do not change: dimension, tolerance, iteration limits, line search parameters. -/
structure StPar (K : Type) where
  d : Nat
  tol : K
  maxiter : Nat
  maxsub : Nat
  alpha : K
  beta : K

/-- The loop of `gradient_descent`, optimization.c:3513-3542. The workspace of `2*d` numbers is the two buffers `cur`, `dir`. -/
def gdLoop (sq : K → K) (c : Cb K) (p : StPar K) :
    Nat → Nat → List K → K → List K → List K → List K → K → List (List K) → C (StRes K)
  | 0, _, _, _, _, _, _, _, _ => .error .diverge
  | fuel + 1, iter, x, fval, grad, cur, dir, eta, pts =>
    if eta > p.tol then do
      let cur ← dcopy p.d x cur
      let dir ← dcopy p.d grad dir
      let dir ← dscal p.d (-1) dir
      let r ← backtrack c.f p.d cur fval dir x fval grad p.alpha p.beta p.maxsub pts
      if r.info ≠ 0 then pure ⟨r.newx, r.fnx, grad, r.info, r.pts⟩
      else if iter + 1 > p.maxiter then pure ⟨r.newx, r.fnx, grad, 1, r.pts⟩
      else if (c.g r.newx).1 ≠ 0 then pure ⟨r.newx, r.fnx, (c.g r.newx).2, -20 + (c.g r.newx).1, r.pts⟩
      else do
        let s ← ddot p.d (c.g r.newx).2 1 (c.g r.newx).2 1
        gdLoop sq c p fuel (iter + 1) r.newx r.fnx (c.g r.newx).2 cur dir (sq s) r.pts
    else pure ⟨x, fval, grad, 0, pts⟩

/-- optimization.c:3492-3545 `gradient_descent`. `fval0` is the content of `*fval` on entry. -/
def gradientDescent (sq : K → K) (c : Cb K) (p : StPar K) (x : List K) (fval0 : K) (cur dir : List K) : C (StRes K) :=
  if (c.g x).1 ≠ 0 then pure ⟨x, fval0, (c.g x).2, -20 + (c.g x).1, []⟩
  else do
    let s ← ddot p.d (c.g x).2 1 (c.g x).2 1
    if sq s < p.tol then pure ⟨x, c.f x, (c.g x).2, 0, [x]⟩
    else gdLoop sq c p (p.maxiter + 1) 1 x (c.f x) (c.g x).2 cur dir (sq s) [x]

/-- The loop of `box_pg_descent`, optimization.c:3598-3636. A failing gradient is reported as -1 here. -/
def pgLoop (sq : K → K) (c : Cb K) (p : StPar K) (lb ub : List K) :
    Nat → Nat → List K → K → List K → List K → List K → K → List (List K) → C (StRes K)
  | 0, _, _, _, _, _, _, _, _ => .error .diverge
  | fuel + 1, iter, x, fval, grad, cur, dir, eta, pts =>
    if eta > p.tol then do
      let cur ← dcopy p.d x cur
      let dir ← dcopy p.d grad dir
      let dir ← dscal p.d (-1) dir
      let r ← backtrackBc c.f p.d lb ub cur fval dir x fval grad p.alpha p.beta p.maxsub pts
      if r.info ≠ 0 then pure ⟨r.newx, r.fnx, grad, r.info, r.pts⟩
      else if iter + 1 > p.maxiter then pure ⟨r.newx, r.fnx, grad, 1, r.pts⟩
      else if (c.g r.newx).1 ≠ 0 then pure ⟨r.newx, r.fnx, (c.g r.newx).2, -1, r.pts⟩
      else do
        let eta ← norm2diff sq r.newx cur p.d
        pgLoop sq c p lb ub fuel (iter + 1) r.newx r.fnx (c.g r.newx).2 cur dir eta r.pts
    else pure ⟨x, fval, grad, 0, pts⟩

/-- optimization.c:3575-3639 `box_pg_descent`. -/
def boxPgDescent (sq : K → K) (c : Cb K) (p : StPar K) (lb ub x : List K) (fval0 : K) (cur dir : List K) : C (StRes K) :=
  if (c.g x).1 ≠ 0 then pure ⟨x, fval0, (c.g x).2, -20 + (c.g x).1, []⟩
  else do
    let s ← ddot p.d (c.g x).2 1 (c.g x).2 1
    if sq s < p.tol then pure ⟨x, c.f x, (c.g x).2, 0, [x]⟩
    else pgLoop sq c p lb ub (p.maxiter + 1) 1 x (c.f x) (c.g x).2 cur dir (sq s) [x]

/-- The call of LAPACK's `dgesv_` with one right hand side followed by `assert(info == 0)` (optimization.c:3289-3290, 3381-3383, 3430-3432):
`solve H b` is the solution left in the right hand side, `none` if `info` is not 0. -/
def dgesv (solve : List K → List K → Option (List K)) (H b : List K) : C (List K) :=
  match solve H b with
  | some z => pure z
  | none => .error .assertFail

/-- The loop of `newton`, optimization.c:3284-3314. The number of passes is not bounded in the code; out of fuel is `Err.diverge`. The
callbacks of this optimizer return new arrays and no code. -/
def newton (sq : K → K) (solve : List K → List K → Option (List K)) (d : Nat) (step tol : K) (g h : List K → List K) :
    Nat → List K → C (List K)
  | 0, _ => .error .diverge
  | fuel + 1, x => do
    let z ← dgesv solve (h x) (g x)
    let r ← forN d (fun ii (s : List K × K) => do
      let v ← rd s.1 ii
      let w ← rd z ii
      let b ← wr s.1 ii (v - step * w)
      pure (b, s.2 + (step * w) ^ 2)) (x, 0)
    if sq r.2 < tol then pure r.1
    else newton sq solve d step tol g h fuel r.1

/-- The sum of squares at optimization.c:3228-3231 and 3443-3446. -/
def sumsq (d : Nat) (a b : List K) : C K :=
  forN d (fun ii s => do
    let u ← rd a ii
    let v ← rd b ii
    pure (s + (u - v) ^ 2)) 0

/-- The loop of `box_damp_newton`, optimization.c:3398-3462. `dir` holds the Newton step, not yet negated. The Hessian buffer is
overwritten by the factors of `dgesv_` and not part of the result. -/
def dnLoop (solve : List K → List K → Option (List K)) (c : Cb K) (p : StPar K) (lb ub : List K) :
    Nat → Nat → List K → K → List K → List K → List K → List (List K) → C (StRes K)
  | 0, _, _, _, _, _, _, _ => .error .diverge
  | fuel + 1, iter, x, fval, grad, cur, dir, pts => do
    let cur ← dcopy p.d x cur
    let dir ← dscal p.d (-1) dir
    let r ← backtrackBc c.f p.d lb ub cur fval dir x fval grad p.alpha p.beta p.maxsub pts
    if r.info ≠ 0 then pure ⟨r.newx, r.fnx, grad, r.info, r.pts⟩
    else if iter + 1 > p.maxiter then pure ⟨r.newx, r.fnx, grad, 1, r.pts⟩
    else if (c.g r.newx).1 ≠ 0 then pure ⟨r.newx, r.fnx, (c.g r.newx).2, -20 + (c.g r.newx).1, r.pts⟩
    else if (c.h r.newx).1 ≠ 0 then pure ⟨r.newx, r.fnx, (c.g r.newx).2, -30 + (c.h r.newx).1, r.pts⟩
    else do
      let grad := (c.g r.newx).2
      let dir ← dgesv solve (c.h r.newx).2 grad
      let eta ← ddot p.d grad 1 dir 1
      let onb ← onBound p.d r.newx lb ub
      let s ← sumsq p.d r.newx cur
      if (if onb then s else eta * eta / 2) < p.tol then pure ⟨r.newx, r.fnx, grad, 0, r.pts⟩
      else dnLoop solve c p lb ub fuel (iter + 1) r.newx r.fnx grad cur dir r.pts

/-- optimization.c:3356-3465 `box_damp_newton`. -/
def boxDampNewton (solve : List K → List K → Option (List K)) (c : Cb K) (p : StPar K) (lb ub x cur : List K) : C (StRes K) :=
  if (c.g x).1 ≠ 0 then pure ⟨x, c.f x, (c.g x).2, -20 + (c.g x).1, [x]⟩
  else if (c.h x).1 ≠ 0 then pure ⟨x, c.f x, (c.g x).2, -30 + (c.h x).1, [x]⟩
  else do
    let dir ← dgesv solve (c.h x).2 (c.g x).2
    let eta ← ddot p.d (c.g x).2 1 dir 1
    if eta * eta / 2 < p.tol then pure ⟨x, c.f x, (c.g x).2, 0, [x]⟩
    else dnLoop solve c p lb ub (p.maxiter + 1) 1 x (c.f x) (c.g x).2 cur dir [x]

/-- The loop of `box_damp_bfgs`, optimization.c:3137-3253. The workspace is the four buffers `space`, `space+d`, `space+2*d`, `space+3*d`; the
documented size of the workspace is `3*d` (3075-3076), so that the last one is empty for a caller who follows it. The result carries the
inverse Hessian. -/
def dbLoop (c : Cb K) (p : StPar K) (lb ub : List K) :
    Nat → Nat → List K → K → List K → List K → List K → List K → List K → List K → List (List K) → C (StRes K × List K)
  | 0, _, _, _, _, _, _, _, _, _, _ => .error .diverge
  | fuel + 1, iter, x, fval, grad, h, cur, dir, w2, w3, pts => do
    let cur ← dcopy p.d x cur
    let r ← backtrackBc c.f p.d lb ub cur fval dir x fval grad p.alpha p.beta p.maxsub pts
    let s ← dscal p.d r.ret dir
    if r.info ≠ 0 then pure (⟨r.newx, r.fnx, grad, r.info, r.pts⟩, h)
    else if iter + 1 > p.maxiter then pure (⟨r.newx, r.fnx, grad, 1, r.pts⟩, h)
    else if (c.g r.newx).1 ≠ 0 then pure (⟨r.newx, r.fnx, grad, -20 + (c.g r.newx).1, r.pts⟩, h)
    else do
      let w2 ← dcopy p.d (c.g r.newx).2 w2
      let y ← daxpy p.d (-1) grad w2
      let u ← bfgsUpdate p.d s y w3 h
      let grad ← daxpy p.d 1 y grad
      let dir ← dsymv p.d (-1) u.1 grad s
      let onb ← onBound p.d r.newx lb ub
      let sq2 ← sumsq p.d r.newx cur
      if (if onb then sq2 else |r.fnx - fval|) < p.tol then pure (⟨r.newx, r.fnx, grad, 0, r.pts⟩, u.1)
      else dbLoop c p lb ub fuel (iter + 1) r.newx r.fnx grad u.1 cur dir y u.2 r.pts

/-- optimization.c:3095-3256 `box_damp_bfgs`. -/
def boxDampBfgs (c : Cb K) (p : StPar K) (lb ub x h cur dir w2 w3 : List K) : C (StRes K × List K) :=
  if (c.g x).1 ≠ 0 then pure (⟨x, c.f x, (c.g x).2, -20 + (c.g x).1, [x]⟩, h)
  else do
    let dir ← dsymv p.d (-1) h (c.g x).2 dir
    let eta ← ddot p.d (c.g x).2 1 dir 1
    if eta * eta / 2 < p.tol then pure (⟨x, c.f x, (c.g x).2, 0, [x]⟩, h)
    else dbLoop c p lb ub (p.maxiter + 1) 1 x (c.f x) (c.g x).2 h cur dir w2 w3 [x]

end C3.Opt

/-
The damped BFGS optimizer of c3/lib_optimization/optimization.c. The inverse Hessian is a column-major `d*d` buffer of which only the
upper triangle is used. NaN and infinite values do not occur (exact field), so the tests `isnan`, `isinf` are left out; tracing and printing
are left out. The workspace of `4*d` numbers is the four buffers `cur`, `dir`, `w2`, `w3`.
-/
import Verif.Opt.Model

namespace C3.Opt

variable {K : Type} [Field K] [LinearOrder K]

/-- Where `CblasColMajor`, `CblasUpper` finds the entry `(i,j)` of a symmetric matrix. -/
def up (d i j : Nat) : Nat := min i j + max i j * d

/-- `cblas_dsymv(CblasColMajor,CblasUpper,d,alpha,a,d,x,1,0.0,y,1)`: `y := alpha*A*x`, reading the upper triangle. -/
def dsymv (d : Nat) (alpha : K) (a x y : List K) : C (List K) :=
  forN d (fun i y => do
    let s ← forN d (fun j s => do
      let v ← rd a (up d i j)
      let w ← rd x j
      pure (s + v * w)) 0
    wr y i (alpha * s)) y

/-- `cblas_dsyr(CblasColMajor,CblasUpper,d,alpha,x,1,a,d)`: `A := A + alpha*x*x'` on the upper triangle. -/
def dsyr (d : Nat) (alpha : K) (x a : List K) : C (List K) :=
  forN d (fun j a =>
    forN (j + 1) (fun i a => do
      let u ← rd x i
      let v ← rd x j
      let w ← rd a (i + j * d)
      wr a (i + j * d) (w + alpha * u * v)) a) a

/-- `cblas_dsyr2(CblasColMajor,CblasUpper,d,alpha,x,1,y,1,a,d)`: `A := A + alpha*(x*y' + y*x')` on the upper triangle. -/
def dsyr2 (d : Nat) (alpha : K) (x y a : List K) : C (List K) :=
  forN d (fun j a =>
    forN (j + 1) (fun i a => do
      let xi ← rd x i
      let xj ← rd x j
      let yi ← rd y i
      let yj ← rd y j
      let w ← rd a (i + j * d)
      wr a (i + j * d) (w + alpha * (xi * yj + yi * xj))) a) a

/-- `cblas_daxpy(d,alpha,x,1,y,1)`. -/
def daxpy (d : Nat) (alpha : K) (x y : List K) : C (List K) :=
  forN d (fun i y => do
    let v ← rd x i
    let w ← rd y i
    wr y i (w + alpha * v)) y

/-- `cblas_dscal(d,alpha,x,1)`; also the loops `workspace[d+ii] *= -1`. -/
def dscal (d : Nat) (alpha : K) (x : List K) : C (List K) :=
  forN d (fun i x => do
    let v ← rd x i
    wr x i (alpha * v)) x

/-- `memmove(b,x,d*sizeof(double))` between different buffers. -/
def dcopy (d : Nat) (x b : List K) : C (List K) :=
  forN d (fun ii b => do
    let v ← rd x ii
    wr b ii v) b

/-- optimization.c:2022-2049 the weak Wolfe search is repeated with the negative gradient if the direction was not one of descent
(code -4); other negative codes end the program. The number of rounds is not bounded in the code. -/
def bfgsRounds (o : Obj K) (p : Par K) (cur : List K) (fold : K) (grad : List K) :
    Nat → List K → List K → List K → K → Tr K → C (Ls K × List K)
  | 0, _, _, _, _, _ => .error .diverge
  | fuel + 1, w2, dir, x, fval, tr => do
    let r ← lsWolfe o p cur fold w2 dir x fval tr
    if r.info = -4 then do
      let dir ← dcopy p.d grad dir
      let dir ← dscal p.d (-1) dir
      bfgsRounds o p cur fold grad fuel r.grad dir r.newx r.newf r.tr
    else if r.info < 0 then .error .exit
    else pure (r, dir)

/-- optimization.c:2008-2053 the line search of one iteration. The gradient of the result is the buffer `workspace+2*d`, the second
component the (possibly changed) search direction. Negative codes of the first two searches are only printed. -/
def bfgsSearch (sq : K → K) (zf : Nat) (o : Obj K) (p : Par K) (cur : List K) (fold : K) (grad dir w2 x : List K) (tr : Tr K) :
    C (Ls K × List K) :=
  match p.alg with
  | .backtrack => do
    let r ← lsBox sq o p cur fold grad dir x fold tr
    pure (⟨r.ret, r.newx, r.newf, o.g r.newx, r.info, r.tr.evg r.newx⟩, dir)
  | .strongwolfe => do
    let w2 ← dcopy p.d grad w2
    let r ← lsStrong sq zf o p cur fold w2 dir x fold tr
    pure (r, dir)
  | .weakwolfe => do
    let w2 ← dcopy p.d grad w2
    bfgsRounds o p cur fold grad 3 w2 dir x fold tr

/-- optimization.c:2090-2109 the update of the inverse Hessian; `w3` is `workspace+3*d`. Returns the matrix and `w3`. -/
def bfgsUpdate (d : Nat) (s y w3 h : List K) : C (List K × List K) := do
  let w3 ← dsymv d 1 h y w3
  let sty ← ddot d s 1 y 1
  let yby ← ddot d y 1 w3 1
  if |sty| > 1 / 10 ^ 16 then do
    let h ← dsyr d ((sty + yby) / (sty * sty)) s h
    let h ← dsyr2 d (-1 / sty) w3 s h
    pure (h, w3)
  else pure (h, w3)

/-- optimization.c:2127-2177 the tests for convergence; `iter` counts from 0. -/
def bfgsTest (p : Par K) (iter : Nat) (onbound : Bool) (eta diff xdiff : K) : Option Ret :=
  if onbound then
    if diff < p.relftol then some .ftol
    else if xdiff < p.absxtol then some .xtol
    else none
  else if eta * eta / 2 < p.gtol ^ 2 then some .gtol
  else if diff < p.relftol then some .ftol
  else if xdiff < p.absxtol then (if iter > 3 then some .xtol else none)
  else none

/-- Result of the BFGS optimizer: as `Res`, with the final inverse Hessian. -/
structure BRes (K : Type) where
  x : List K
  fval : K
  grad : List K
  h : List K
  ret : Ret
  niters : Nat
  tr : Tr K
  infos : List Int
  deriving DecidableEq

/-- The loop of `c3_opt_damp_bfgs`, optimization.c:2000-2209. -/
def bfgsLoop (sq : K → K) (zf : Nat) (o : Obj K) (p : Par K) :
    Nat → Nat → List K → K → List K → List K → List K → List K → List K → List K → Nat → Tr K → List Int → C (BRes K)
  | 0, _, _, _, _, _, _, _, _, _, _, _, _ => .error .diverge
  | fuel + 1, iter, x, fval, grad, h, cur, dir, w2, w3, niters, tr, infos => do
    let cur ← dcopy p.d x cur
    let rd ← bfgsSearch sq zf o p cur fval grad dir w2 x tr
    let r := rd.1
    let xdiff ← norm2diff sq r.newx cur p.d
    let s ← dscal p.d (-1) cur
    let s ← daxpy p.d 1 r.newx s
    let y ← daxpy p.d (-1) grad r.grad
    let u ← bfgsUpdate p.d s y w3 h
    let grad ← daxpy p.d 1 y grad
    let dir ← dsymv p.d (-1) u.1 grad rd.2
    let eta ← ddot p.d grad 1 dir 1
    let onb ← onBound p.d r.newx p.lb p.ub
    if iter + 1 > p.maxiter then pure ⟨r.newx, r.newf, grad, u.1, .maxiter, niters + 1, r.tr, r.info :: infos⟩
    else
      match bfgsTest p iter onb eta (fdiff r.newf fval) xdiff with
      | some c => pure ⟨r.newx, r.newf, grad, u.1, c, niters + 1, r.tr, r.info :: infos⟩
      | none => bfgsLoop sq zf o p fuel (iter + 1) r.newx r.newf grad u.1 s dir y u.2 (niters + 1) r.tr (r.info :: infos)

/-- optimization.c:1923-2212 `c3_opt_damp_bfgs`, called with the matrix `h`; the gradient buffer is allocated by the caller. -/
def optBfgs (sq : K → K) (zf : Nat) (o : Obj K) (p : Par K) (x h cur dir w2 w3 : List K) : C (BRes K) := do
  let tr := (Tr.mk 0 0 []).evg x
  let dir ← dsymv p.d (-1) h (o.g x) dir
  bfgsLoop sq zf o p (p.maxiter + 1) 0 x (o.f x) (o.g x) h cur dir w2 w3 1 tr []

/-- optimization.c:2975-2985 `c3opt_minimize` with `BFGS`: the matrix starts as the identity. -/
def minBfgs (sq : K → K) (zf : Nat) (o : Obj K) (p : Par K) (x cur dir w2 w3 : List K) : C (BRes K) := do
  let h ← forN p.d (fun ii b => wr b (ii * p.d + ii) 1) (List.replicate (p.d * p.d) 0)
  optBfgs sq zf o p x h cur dir w2 w3

end C3.Opt

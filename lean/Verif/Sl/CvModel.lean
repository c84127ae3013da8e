/-
Cross validation (regress.c).
-/
import Verif.Core.Mem
import Verif.Core.Sum
import Mathlib.Algebra.Field.Basic

namespace C3.Sl

variable {K : Type}

/-- `memmove(dst + doff, src + soff, n)` between different arrays. -/
def mv (dst : List K) (doff : Nat) (src : List K) (soff n : Nat) : C (List K) :=
  forN n (fun i b => do
    let v ← rd src (soff + i)
    wr b (doff + i) v) dst

/-- The arrays of a fold: `xtest`, `ytest`, `xtrain`, `ytrain`. -/
structure Split (K : Type) where
  xtest : List K
  ytest : List K
  xtrain : List K
  ytrain : List K

/-- regress.c:1579-1597 `extract_data`. -/
def extractData (N dim : Nat) (x y : List K) (start num : Nat) (s : Split K) : C (Split K) := do
  let xt ← mv s.xtest 0 x (start * dim) (dim * num)
  let yt ← mv s.ytest 0 y start num
  let xr ← mv s.xtrain 0 x 0 (dim * start)
  let yr ← mv s.ytrain 0 y 0 start
  let xr ← mv xr (start * dim) x ((start + num) * dim) (dim * (N - start - num))
  let yr ← mv yr start y (start + num) (N - start - num)
  .ok ⟨xt, yt, xr, yr⟩

/-- `ft_regress_run` as a function of the parameterised train `P`, the state `O` of optimizer and
options, the number of training data and the data: the new parameterised train, the new state and the
function train returned, as a function of a point.  Simplified: it is handed only the part of the
training arrays that holds training data. -/
abbrev Learner (K P O : Type) := P → O → Nat → List K → List K → C (P × O × (List K → K))

/-- State of the loop over the folds (`reg->ftp` is `ftp`). -/
structure CvSt (K P O : Type) where
  sp : Split K
  batch : Nat
  start : Nat
  erri : K
  norm : K
  ftp : P
  opt : O

variable [Field K] [DecidableEq K] {P O : Type}

/-- regress.c:1613-1704 `cross_validate_run`: error and norm over one fold. -/
def foldErr (dim batch : Nat) (ft : List K → K) (xtest ytest : List K) : C (K × K) :=
  forN batch (fun jj (s : K × K) => do
    let y ← rd ytest jj
    let eval := ft ((xtest.drop (jj * dim)).take dim)
    .ok (s.1 + (y - eval) * (y - eval), s.2 + y * y)) (0, 0)

/-- regress.c:1613-1704 `cross_validate_run`: one fold. -/
def cvFold (N dim kfold : Nat) (x y : List K) (run : Learner K P O) (orig : P) (ii : Nat)
    (s : CvSt K P O) : C (CvSt K P O) := do
  let batch := if ii = kfold - 1 then N - s.start else s.batch
  let sp ← extractData N dim x y s.start batch s.sp
  let q ← run orig s.opt (N - batch) (sp.xtrain.take ((N - batch) * dim))
    (sp.ytrain.take (N - batch))
  let e ← foldErr dim batch q.2.2 sp.xtest sp.ytest
  .ok ⟨sp, batch, s.start + batch, s.erri + e.1, s.norm + e.2, orig, q.2.1⟩

/-- regress.c:1613-1704 `cross_validate_run`: `N / 0` is undefined, a zero norm is a division by
zero. -/
def cvRun (N dim kfold : Nat) (x y : List K) (run : Learner K P O) (ftp : P) (opt : O) :
    C (K × P × O) :=
  if kfold = 0 then .error .ub
  else do
    let z (n : Nat) : List K := List.replicate n 0
    let s ← forN kfold (cvFold N dim kfold x y run ftp)
      ⟨⟨z (N * dim), z N, z (N * dim), z N⟩, N / kfold, 0, 0, 0, ftp, opt⟩
    if s.norm = 0 then .error .ub else .ok (s.erri / s.norm, s.ftp, s.opt)

end C3.Sl

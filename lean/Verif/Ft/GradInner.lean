/-
Gradient of the inner product of a parameterised train with another train with respect to the parameters
(lib_superlearn/parameterization.c). The univariate routine `generic_function_param_grad_inner` is the argument `pgi`: it
returns the block of entries it writes, one for each parameter of its first argument.
-/
import Verif.Ft.Mul

namespace C3.Ft
variable {K U : Type} [Field K]

/-- parameterization.c:1811-1814 (and 1823-1828, 1851-1855): one call of `generic_function_param_grad_inner` with
`grad_param + on_param`, then `on_param += num`. The state is the gradient array and `on_param`. -/
def putGrad (pgi : U → U → C (List K)) (f g : U) (s : List K × Nat) : C (List K × Nat) := do
  let blk ← pgi f g
  let gr ← forN blk.length (fun i gr => do
    let v ← rd blk i
    wr gr (s.2 + i) v) s.1
  pure (gr, s.2 + blk.length)

/-- parameterization.c:1776-1804: backward sweep, keeping the arrays `Ak` (NULL for the last core) and the running matrix. -/
def gipBack (o : LOps K U) (inner : U → U → C K) (f g : FT K U) : C (List (Option (Qma U)) × List K) := do
  let F ← rd f.cores (f.dim - 1)
  let G ← rd g.cores (f.dim - 1)
  let t ← kronInt inner F G
  forR 1 f.dim (fun ii s => do
    let F ← rd f.cores (f.dim - 1 - ii)
    let G ← rd g.cores (f.dim - 1 - ii)
    let A ← qmam o G s.2 F.ncols
    let t2 ← qmaqmatInt inner A F
    let t ← copyK (F.nrows * G.nrows) t2
    let Ak ← wr s.1 (f.dim - 1 - ii) (some A)
    pure (Ak, t)) (List.replicate f.dim none, t)

/-- Dereference `Ak[k]`. -/
def getAk (Ak : List (Option (Qma U))) (k : Nat) : C (Qma U) := do
  match ← rd Ak k with
  | none => .error .null
  | some A => .ok A

/-- parameterization.c:1808-1816: the first core. -/
def gipFirst (pgi : U → U → C (List K)) (f : FT K U) (Ak : List (Option (Qma U))) (grad : List K) :
    C (List K × Nat) := do
  let r1 ← rd f.ranks 1
  forN r1 (fun ii st => do
    let F ← rd f.cores 0
    let u ← rd F.funcs ii
    let A ← getAk Ak 0
    let v ← rd A.funcs ii
    putGrad pgi u v st) (grad, 0)

/-- parameterization.c:1820-1831: the entries of core `ii`, with the array `Ctranspose`. -/
def gipCore (pgi : U → U → C (List K)) (r0 r1 : Nat) (F Ct : Qma U) (st : List K × Nat) : C (List K × Nat) :=
  forN r1 (fun col st => forN r0 (fun row st => do
    let u ← rd F.funcs (row + col * r0)
    let v ← rd Ct.funcs (col + row * r1)
    putGrad pgi u v st) st) st

/-- parameterization.c:1818-1847: one step of the forward sweep over the inner cores. -/
def gradMid (o : LOps K U) (inner : U → U → C K) (pgi : U → U → C (List K)) (f g : FT K U) (Ak : List (Option (Qma U)))
    (ii : Nat) (w : (List K × Nat) × List K) : C ((List K × Nat) × List K) := do
  let F ← rd f.cores ii
  let A ← getAk Ak ii
  let Ct ← qmatm o A w.2 F.nrows
  let r1 ← rd f.ranks (ii + 1)
  let r0 ← rd f.ranks ii
  let st ← gipCore pgi r0 r1 F Ct w.1
  let G ← rd g.cores ii
  let At ← qmatm o G w.2 F.nrows
  let t2 ← qmaqmaInt inner At F
  let t ← copyK (F.ncols * G.ncols) t2
  pure (st, t)

/-- parameterization.c:1848-1856: the last core. -/
def gradLast (o : LOps K U) (pgi : U → U → C (List K)) (f g : FT K U) (w : (List K × Nat) × List K) : C (List K × Nat) := do
  let G ← rd g.cores (f.dim - 1)
  let F ← rd f.cores (f.dim - 1)
  let At ← qmatm o G w.2 F.nrows
  let r ← rd f.ranks (f.dim - 1)
  forN r (fun ii st => do
    let u ← rd F.funcs ii
    let v ← rd At.funcs ii
    putGrad pgi u v st) w.1

/-- parameterization.c:1771-1869 `ft_param_grad_inner`: the inner product and the gradient array. `dim = 0` is excluded in C
by the constructors; here `cores[dim-1]` of an empty train is out of bounds. -/
def gradInner (o : LOps K U) (inner : U → U → C K) (pgi : U → U → C (List K)) (f g : FT K U) (grad : List K) :
    C (K × List K) := do
  cassert (decide (f.dim = g.dim))
  let s ← gipBack o inner f g
  let ip ← rd s.2 0
  let st ← gipFirst pgi f s.1 grad
  let F ← rd f.cores 0
  let G ← rd g.cores 0
  let t ← kronInt inner F G
  let w ← forR 1 (f.dim - 1) (gradMid o inner pgi f g s.1) (st, t)
  let st ← gradLast o pgi f g w
  pure (ip, st.1)

end C3.Ft

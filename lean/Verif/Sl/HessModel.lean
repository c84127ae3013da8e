/-
Product of the Hessian of a parameterised function train with a vector.
Source: c3/lib_superlearn/parameterization.c.
-/
import Verif.Sl.Model

namespace C3.Sl

variable {K U : Type} [CommRing K]

/-- parameterization.c:1541-1552 `vec_mat`; the matrix starts at position `off` of `mat`. -/
def vecMat (N M : Nat) (vec mat : List K) (off : Nat) (out : List K) : C (List K) :=
  forN M (fun jj out => do
    let out ← wr out jj 0
    forN N (fun ii out => do
      let o ← rd out jj
      let v ← rd vec ii
      let m ← rd mat (off + (ii + jj * N))
      wr out jj (o + v * m)) out) out

/-- The variables `left_eval`, `space`, `on_eval` of `hess_ij`. -/
structure Hs (K : Type) where
  left : List K
  space : List K
  on : Nat

/-- `memmove(left_eval, space, n * sizeof(double))`. -/
def moveN (n : Nat) (src dst : List K) : C (List K) :=
  forN n (fun i d => do
    let v ← rd src i
    wr d i v) dst

/-- parameterization.c:1577-1580, 1602-1605, 1626-1629: one core, multiplied from the right. -/
def advance (ranks : List Nat) (evals : List K) (core : Nat) (s : Hs K) : C (Hs K) := do
  let r1 ← rd ranks core
  let r2 ← rd ranks (core + 1)
  let space ← vecMat r1 r2 s.left evals s.on s.space
  let left ← moveN r2 space s.left
  .ok ⟨left, space, s.on + r1 * r2⟩

/-- parameterization.c:1584-1591, 1613-1621: `left_eval` becomes `val` at `col` and zero elsewhere. -/
def setOnly (n col : Nat) (val : K) (left : List K) : C (List K) :=
  forN n (fun ii left => wr left ii (if ii ≠ col then 0 else val)) left

/-- parameterization.c:1570-1594, the part for `core_ii > 0`. -/
def leftPart (ranks : List Nat) (evals : List K) (a row col : Nat) (g : K) (s : Hs K) : C (Hs K) := do
  let r1 ← rd ranks 1
  let left ← moveN r1 evals s.left
  let s ← forR 1 a (advance ranks evals) ⟨left, s.space, s.on + r1⟩
  let val ← rd s.left row
  let ra ← rd ranks a
  let rb ← rd ranks (a + 1)
  let left ← setOnly rb col (val * g) s.left
  .ok ⟨left, s.space, s.on + ra * rb⟩

/-- parameterization.c:1570-1600: the product of the cores up to the first function. -/
def firstPart (ranks : List Nat) (evals : List K) (a row col : Nat) (g : K) (s : Hs K) : C (Hs K) :=
  if a > 0 then leftPart ranks evals a row col g s else do
    let left ← wr s.left col g
    let r1 ← rd ranks 1
    .ok ⟨left, s.space, r1⟩

/-- parameterization.c:1559-1636 `hess_ij`; `num_vals` is the number of values that the copies move. -/
def hessIJ (dim a b rowi coli rowj colj : Nat) (evals : List K) (gi gj : K) (maxrank : Nat) (ranks : List Nat) : C K := do
  cassert (decide (b > a))
  let s ← firstPart ranks evals a rowi coli gi ⟨List.replicate maxrank 0, List.replicate maxrank 0, 0⟩
  let s ← forR (a + 1) b (advance ranks evals) s
  let v ← rd s.left rowj
  let rb ← rd ranks b
  let rc ← rd ranks (b + 1)
  let left ← setOnly rc colj (v * gj) s.left
  let s ← forR (b + 1) dim (advance ranks evals) ⟨left, s.space, s.on + rb * rc⟩
  rd s.left 0

/-- parameterization.c:1661-1667: the largest of the ranks except the last. -/
def maxRank (F : FTP K U) : C Nat := do
  let r0 ← rd F.ranks 0
  forN F.dim (fun ii m => do
    let r ← rd F.ranks ii
    .ok (if r > m then r else m)) r0

/-- parameterization.c:1671-1693: values and derivatives of the univariate functions; the counter `onparam_hess` is not used
for anything and not modelled. -/
structure Pre (K : Type) where
  evals : List K
  d1 : List K
  onuni : Nat
  onparam : Nat

def precompute (F : FTP K U) (ge : U → K → K × List K) (x : List K) : C (Pre K) :=
  forN F.dim (fun ii s => do
    let r1 ← rd F.ranks ii
    let r2 ← rd F.ranks (ii + 1)
    forN (r1 * r2) (fun jj s => do
      let gv ← evNonlin F ge x ii jj s.onuni s.onparam s.d1
      let evals ← wr s.evals s.onuni gv.2
      let np ← rd F.npu s.onuni
      .ok ⟨evals, gv.1, s.onuni + 1, s.onparam + np⟩) s) ⟨List.replicate F.nparams 0, List.replicate F.nparams 0, 0, 0⟩

/-- Loops over the cores from `a` on, their columns and their rows (parameterization.c:1706-1714, 1728-1732). `pre` is done once per core. -/
def nest {S : Type} (F : FTP K U) (a : Nat) (pre : Nat → S → C S) (body : Nat → Nat → Nat → S → C S) (s : S) : C S :=
  forR a F.dim (fun k s => do
    let s ← pre k s
    let r2 ← rd F.ranks (k + 1)
    forN r2 (fun col s => do
      let r1 ← rd F.ranks k
      forN r1 (fun row s => body k col row s) s) s) s

/-- The variables `param_jj`, `onuni_jj`, `hess_vec`. -/
structure Hj (K : Type) where
  p : Nat
  u : Nat
  hv : List K

/-- The variables `param_ii`, `onuni_ii`, `start_params_col`, `start_onuni_jj`, `hess_vec`. -/
structure Hi (K : Type) where
  p : Nat
  u : Nat
  sp : Nat
  su : Nat
  hv : List K

/-- parameterization.c:1737-1750: one parameter of the other function. -/
def hessPair (F : FTP K U) (evals d1 vec : List K) (maxrank a rowi coli pi b rowj colj : Nat) (s : Hj K) : C (Hj K) := do
  let gi ← rd d1 pi
  let gj ← rd d1 s.p
  let h ← hessIJ F.dim a b rowi coli rowj colj evals gi gj maxrank F.ranks
  let o ← rd s.hv pi
  let v ← rd vec s.p
  let hv ← wr s.hv pi (o + h * v)
  let o ← rd hv s.p
  let v ← rd vec pi
  let hv ← wr hv s.p (o + h * v)
  .ok ⟨s.p + 1, s.u, hv⟩

/-- parameterization.c:1723-1763: one parameter, against all parameters of later cores. -/
def hessRow (F : FTP K U) (evals d1 vec : List K) (maxrank a rowi coli : Nat) (s : Hi K) : C (Hi K) := do
  let t ← nest F (a + 1) (fun _ t => .ok t) (fun b colj rowj t => do
    let np ← rd F.npu t.u
    let t ← forN np (fun _ t => hessPair F evals d1 vec maxrank a rowi coli s.p b rowj colj t) t
    .ok { t with u := t.u + 1 }) ⟨s.sp, s.su, s.hv⟩
  .ok { s with p := s.p + 1, hv := t.hv }

/-- parameterization.c:1654-1761 `ft_param_hessvec`: the return value and the contents of `hess_vec`. The variable `eval` is
returned but never changed. -/
def hessvec (F : FTP K U) (ge : U → K → K × List K) (x vec hv : List K) : C (K × List K) := do
  let m ← maxRank F
  let q ← precompute F ge x
  let hv ← forN F.nparams (fun ii hv => wr hv ii 0) hv
  let s ← nest F 0 (fun k s => do
      let npc ← rd F.npc k
      let r1 ← rd F.ranks k
      let r2 ← rd F.ranks (k + 1)
      .ok { s with sp := s.sp + npc, su := s.su + r1 * r2 })
    (fun a coli rowi s => do
      let np ← rd F.npu s.u
      let s ← forN np (fun _ s => hessRow F q.evals q.d1 vec m a rowi coli s) s
      .ok { s with u := s.u + 1 }) ⟨0, 0, 0, 0, hv⟩
  .ok (0, s.hv)

end C3.Sl

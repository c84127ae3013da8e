/-
Parameterised function trains: value and gradient with respect to the parameters.
Source: c3/lib_superlearn/parameterization.c.
Numbers are elements of an exact commutative ring `K`.
The univariate functions are abstract objects of type `U`; the only thing the code does with them
is to call `generic_function_param_grad_eval2`, here the argument `ge`: the value of the function
at a point together with the list of derivatives with respect to its own parameters, which the C
function writes to the buffer it is given.
-/
import Verif.Core.Sum

namespace C3.Sl

variable {K U : Type} [CommRing K]

/-- parameterization.c:38-50 `struct FTparam` (`dim`, `nparams`, `nparams_per_uni`,
`nparams_per_core`, `params`) together with the ranks and the univariate functions
(`cores[k]->funcs`, column major) of the function train it refers to. -/
structure FTP (K U : Type) where
  dim : Nat
  ranks : List Nat
  npu : List Nat
  npc : List Nat
  nparams : Nat
  params : List K
  cores : List (List U)

/-- `cblas_ddot(n, a + ao, 1, b + bo, 1)`. -/
def dotAt (n : Nat) (a : List K) (ao : Nat) (b : List K) (bo : Nat) : C K :=
  forN n (fun i s => do
    let x ← rd a (ao + i)
    let y ← rd b (bo + i)
    .ok (s + x * y)) 0

/-- Copy the list `l` to `buf + off`: the effect of a callee that fills a caller's buffer. -/
def putAt (buf : List K) (off : Nat) (l : List K) : C (List K) :=
  forN l.length (fun i b => do
    let v ← rd l i
    wr b (off + i) v) buf

/-- How one univariate function is evaluated in the forward sweep.  Arguments: core, position in
the core, position of the function in the train, offset of its parameters, the buffer
`grad_evals`.  Result: the buffer and the value. -/
abbrev EvalFn (K : Type) := Nat → Nat → Nat → Nat → List K → C (List K × K)

/-- parameterization.c:1045-1166 `ft_param_gradeval`, the calls
`generic_function_param_grad_eval2(ft->cores[kk]->funcs[row + col*ranks[kk]], x[kk], grad_evals + onparam)`. -/
def evNonlin (F : FTP K U) (ge : U → K → K × List K) (x : List K) : EvalFn K :=
  fun kk j _ onparam gev => do
    let core ← rd F.cores kk
    let u ← rd core j
    let xk ← rd x kk
    let gev' ← putAt gev onparam (ge u xk).2
    .ok (gev', (ge u xk).1)

/-- parameterization.c:886-1008 `ft_param_gradeval_lin`, the calls
`cblas_ddot(nparams_per_uni[onuni], grad_evals + onparam, 1, params + onparam, 1)`. -/
def evLin (F : FTP K U) : EvalFn K :=
  fun _ _ onuni onparam gev => do
    let np ← rd F.npu onuni
    let v ← dotAt np gev onparam F.params onparam
    .ok (gev, v)

/-- Local variables and workspaces of the forward sweep. -/
structure Fw (K : Type) where
  mem : List K
  evals : List K
  gev : List K
  onuni : Nat
  onparam : Nat
  indmem : Nat

/-- parameterization.c:1045-1166 `ft_param_gradeval` (same text in `ft_param_gradeval_lin`):
body of the loop over rows, `kk > 0`. -/
def fwRow (F : FTP K U) (ef : EvalFn K) (kk rk col row : Nat) (s : Fw K) : C (Fw K) := do
  let q ← ef kk (row + col * rk) s.onuni s.onparam s.gev
  let evals ← wr s.evals s.onuni q.2
  let a ← rd s.mem (s.indmem + rk + col)
  let b ← rd s.mem (s.indmem + row)
  let mem ← wr s.mem (s.indmem + rk + col) (a + b * q.2)
  let np ← rd F.npu s.onuni
  .ok { s with mem := mem, evals := evals, gev := q.1, onuni := s.onuni + 1
               onparam := s.onparam + np }

/-- parameterization.c:1045-1166 `ft_param_gradeval` (same text in `ft_param_gradeval_lin`):
body of the loop over columns, `kk == 0`. -/
def fwCol0 (F : FTP K U) (ef : EvalFn K) (col : Nat) (s : Fw K) : C (Fw K) := do
  let q ← ef 0 col s.onuni s.onparam s.gev
  let mem ← wr s.mem col q.2
  let evals ← wr s.evals col q.2
  let np ← rd F.npu s.onuni
  .ok { s with mem := mem, evals := evals, gev := q.1, onuni := s.onuni + 1
               onparam := s.onparam + np }

/-- parameterization.c:1045-1166 `ft_param_gradeval` (same text in `ft_param_gradeval_lin`):
body of the loop over columns, `kk > 0`. -/
def fwCol (F : FTP K U) (ef : EvalFn K) (kk rk col : Nat) (s : Fw K) : C (Fw K) := do
  let mem ← wr s.mem (s.indmem + rk + col) 0
  forN rk (fwRow F ef kk rk col) { s with mem := mem }

/-- parameterization.c:1045-1166 `ft_param_gradeval` (same text in `ft_param_gradeval_lin`):
body of the loop over cores of the forward sweep. -/
def fwCore (F : FTP K U) (ef : EvalFn K) (kk : Nat) (s : Fw K) : C (Fw K) := do
  let rk ← rd F.ranks kk
  let rk1 ← rd F.ranks (kk + 1)
  if kk > 0 then do
    let s' ← forN rk1 (fwCol F ef kk rk) s
    .ok { s' with indmem := s'.indmem + rk }
  else
    forN rk1 (fwCol0 F ef) s

/-- Forward sweep. -/
def forward (F : FTP K U) (ef : EvalFn K) (s : Fw K) : C (Fw K) :=
  forN F.dim (fwCore F ef) s

/-- Local variables and workspaces of the backward sweep. -/
structure Bw (K : Type) where
  mem : List K
  grad : List K
  onuni : Nat
  onparam : Nat
  indmem : Nat

/-- `for (ll = 0; ll < nparams_per_uni[onuni]; ll++){ grad[onparam] = f(grad_evals[onparam]); onparam++; }`
followed by `onuni++`: the innermost loop of the backward sweep. -/
def gradUni (F : FTP K U) (gev : List K) (f : K → K) (s : Bw K) : C (Bw K) := do
  let np ← rd F.npu s.onuni
  let s' ← forN np (fun _ (s : Bw K) => do
    let g ← rd gev s.onparam
    let grad ← wr s.grad s.onparam (f g)
    .ok { s with grad := grad, onparam := s.onparam + 1 }) s
  .ok { s' with onuni := s'.onuni + 1 }

/-- parameterization.c:1045-1166 `ft_param_gradeval` (same text in `ft_param_gradeval_lin`):
loops of the branch `backind < dim-1`. -/
def bwMidLoop (F : FTP K U) (gev : List K) (r1 r2 : Nat) (s : Bw K) : C (Bw K) :=
  forN r2 (fun ii s => do
    let right ← rd s.mem (s.indmem + r1 + ii)
    forN r1 (fun kk (s : Bw K) => do
      let left ← rd s.mem (s.indmem + kk)
      gradUni F gev (fun g => left * g * right) s) s) s

/-- `cblas_dgemv(ColMajor, NoTrans, r1, r2, 1.0, evals + onuni, r1, mem + indmem + r1, 1, 0.0, mem + indmem, 1)`,
source and destination do not overlap. -/
def gemvBack (evals : List K) (onuni r1 r2 indmem : Nat) (mem : List K) : C (List K) :=
  forN r1 (fun i m => do
    let v ← forN r2 (fun j acc => do
      let a ← rd evals (onuni + i + j * r1)
      let b ← rd mem (indmem + r1 + j)
      .ok (acc + a * b)) 0
    wr m (indmem + i) v) mem

/-- parameterization.c:1045-1166 `ft_param_gradeval` (same text in `ft_param_gradeval_lin`):
branch `backind < dim-1`. -/
def bwMid (F : FTP K U) (evals gev : List K) (r1 r2 npc : Nat) (s : Bw K) : C (Bw K) := do
  let s1 ← bwMidLoop F gev r1 r2 s
  let onuni := s1.onuni - r1 * r2
  let mem ← gemvBack evals onuni r1 r2 s1.indmem s1.mem
  .ok { s1 with mem := mem, onuni := onuni, onparam := s1.onparam - npc }

/-- parameterization.c:1045-1166 `ft_param_gradeval` (same text in `ft_param_gradeval_lin`):
branch `backind == dim-1`. -/
def bwLast (F : FTP K U) (evals gev : List K) (r1 r2 npc : Nat) (s : Bw K) : C (Bw K) := do
  let s1 ← forN r1 (fun kk (s : Bw K) => do
    let left ← rd s.mem (s.indmem + kk)
    let e ← rd evals s.onuni
    let s' ← gradUni F gev (fun g => left * g) s
    let mem ← wr s'.mem (s'.indmem + kk) e
    .ok { s' with mem := mem }) s
  .ok { s1 with onuni := s1.onuni - r1 * r2, onparam := s1.onparam - npc }

/-- parameterization.c:1045-1166 `ft_param_gradeval` (same text in `ft_param_gradeval_lin`):
body of the loop over `zz`.  The subtractions on `size_t` never go below zero here. -/
def bwCore (F : FTP K U) (evals gev : List K) (zz : Nat) (s : Bw K) : C (Bw K) := do
  let b := F.dim - 1 - zz
  let r1 ← rd F.ranks b
  let r2 ← rd F.ranks (b + 1)
  let npc ← rd F.npc b
  let s1 : Bw K := { s with indmem := s.indmem - r1, onuni := s.onuni - r1 * r2
                            onparam := s.onparam - npc }
  if b < F.dim - 1 then bwMid F evals gev r1 r2 npc s1
  else bwLast F evals gev r1 r2 npc s1

/-- parameterization.c:1045-1166 `ft_param_gradeval` (same text in `ft_param_gradeval_lin`):
first core.  The C code subtracts `r1` from `indmem`, which wraps below zero, and adds it again in
the index; the wrap-around cancels, so the index is `indmem + ii`. -/
def bwFirst (F : FTP K U) (gev : List K) (s : Bw K) : C (Bw K) := do
  let r1 ← rd F.ranks 0
  let r2 ← rd F.ranks 1
  let npc ← rd F.npc 0
  forN r2 (fun ii (s : Bw K) => do
    let right ← rd s.mem (s.indmem + ii)
    gradUni F gev (fun g => g * right) s)
    { s with onuni := s.onuni - r1 * r2, onparam := s.onparam - npc }

/-- Backward sweep. -/
def backward (F : FTP K U) (evals gev : List K) (s : Bw K) : C (Bw K) := do
  let s1 ← forN (F.dim - 1) (bwCore F evals gev) s
  bwFirst F gev s1

/-- Result of the gradient functions: return value and the buffers written. -/
structure GRes (K : Type) where
  out : K
  grad : List K
  gev : List K
  mem : List K
  evals : List K

/-- Common part of parameterization.c:1045-1166 `ft_param_gradeval` and
`ft_param_gradeval_lin`, whose texts differ only in how a univariate function is evaluated. -/
def gradGen (F : FTP K U) (ef : EvalFn K) (grad gev mem evals : List K) : C (GRes K) := do
  let r0 ← rd F.ranks 0
  cassert (decide (r0 = 1))
  let f ← forward F ef ⟨mem, evals, gev, 0, 0, 0⟩
  let out ← rd f.mem f.indmem
  let b ← backward F f.evals f.gev ⟨f.mem, grad, f.onuni, f.onparam, f.indmem⟩
  .ok ⟨out, b.grad, f.gev, b.mem, f.evals⟩

/-- parameterization.c:1045-1166 `ft_param_gradeval`. -/
def gradeval (F : FTP K U) (ge : U → K → K × List K) (x grad gev mem evals : List K) :
    C (GRes K) :=
  gradGen F (evNonlin F ge x) grad gev mem evals

/-- parameterization.c:886-1008 `ft_param_gradeval_lin`. -/
def gradevalLin (F : FTP K U) (gev grad mem evals : List K) : C (GRes K) :=
  gradGen F (evLin F) grad gev mem evals

/-- Local variables of `ft_param_eval_lin`. -/
structure El (K : Type) where
  mem : List K
  onuni : Nat
  onparam : Nat
  indmem : Nat

/-- parameterization.c:832-873 `ft_param_eval_lin`, loop over the first core. -/
def elCol0 (F : FTP K U) (gev : List K) (col : Nat) (s : El K) : C (El K) := do
  let np ← rd F.npu s.onuni
  let v ← dotAt np gev s.onparam F.params s.onparam
  let mem ← wr s.mem col v
  .ok { s with mem := mem, onparam := s.onparam + np, onuni := s.onuni + 1 }

/-- parameterization.c:832-873 `ft_param_eval_lin`, loop over rows. -/
def elRow (F : FTP K U) (gev : List K) (rk col row : Nat) (s : El K) : C (El K) := do
  let np ← rd F.npu s.onuni
  let dd ← dotAt np gev s.onparam F.params s.onparam
  let a ← rd s.mem (s.indmem + rk + col)
  let b ← rd s.mem (s.indmem + row)
  let mem ← wr s.mem (s.indmem + rk + col) (a + b * dd)
  .ok { s with mem := mem, onparam := s.onparam + np, onuni := s.onuni + 1 }

/-- parameterization.c:832-873 `ft_param_eval_lin`, loop over columns. -/
def elCol (F : FTP K U) (gev : List K) (rk col : Nat) (s : El K) : C (El K) := do
  let mem ← wr s.mem (s.indmem + rk + col) 0
  forN rk (elRow F gev rk col) { s with mem := mem }

/-- parameterization.c:832-873 `ft_param_eval_lin`, loop over cores. -/
def elCore (F : FTP K U) (gev : List K) (kk : Nat) (s : El K) : C (El K) := do
  let rk ← rd F.ranks kk
  let rk1 ← rd F.ranks (kk + 1)
  let s' ← forN rk1 (elCol F gev rk) s
  .ok { s' with indmem := s'.indmem + rk }

/-- parameterization.c:832-873 `ft_param_eval_lin`. -/
def evalLin (F : FTP K U) (gev mem : List K) : C K := do
  let r0 ← rd F.ranks 0
  cassert (decide (r0 = 1))
  let r1 ← rd F.ranks 1
  let s ← forN r1 (elCol0 F gev) ⟨mem, 0, 0, 0⟩
  let s ← forR 1 F.dim (elCore F gev) s
  rd s.mem s.indmem

/-- parameterization.c:1023-1031 `ft_param_gradevals`: the gradient of point `ii` goes to
`grad + ii*nparams`; the values are dropped.  The sub-buffers `x + ii*dim` and `grad + ii*nparams`
are passed as the lists starting there. -/
def gradevals (F : FTP K U) (ge : U → K → K × List K) (N : Nat) (x grad gev mem evals : List K) :
    C (List K) := do
  let r ← forN N (fun ii (s : GRes K) => do
    let q ← gradeval F ge (x.drop (ii * F.dim)) (s.grad.drop (ii * F.nparams)) s.gev s.mem s.evals
    .ok { q with grad := s.grad.take (ii * F.nparams) ++ q.grad }) ⟨0, grad, gev, mem, evals⟩
  .ok r.grad

end C3.Sl

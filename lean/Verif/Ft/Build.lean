/-
Constructors of structured function trains (lib_clinalg/ft.c:1606-2110). The options of dimension `k` are `opts[k]`.
-/
import Verif.Ft.Alg
import Mathlib.Algebra.Order.AbsoluteValue.Basic

namespace C3.Ft
variable {K U O : Type} [Field K]

/-- Univariate constructors: `const a o` is `generic_function_constant(a,o->fc,o->aopts)`, `lin c a o` is
`generic_function_linear` (c x + a), `quad c m o` is `generic_function_quadratic` (c (x-m)^2), `zero` is
`generic_function_zero`, `approx k o` is `generic_function_approximate1d` applied to the k-th wrapped function, `linUpd`
is `generic_function_linear_update`. All may abort. -/
structure Con (K U O : Type) where
  const : K → O → C U
  lin : K → K → O → C U
  quad : K → K → O → C U
  zero : O → C U
  approx : Nat → O → C U
  linUpd : U → K → K → C U

/-- Fill a qmarray of `n × m` entries from the given functions in storage order; unset entries are NULL. -/
def qmaOf (n m : Nat) (fs : List U) : C (Qma U) := do
  let c ← forN fs.length (fun i c => do
    let f ← rd fs i
    wr c i (some f)) (List.replicate (n * m) none)
  let l ← allSome c
  pure ⟨n, m, l⟩

/-- The common shape of ft.c:1606-1665 (`initsum`), 1761-1822 (`linear`) and 2039-2101 (`quadratic_aligned`) for
dimension ≥ 2: `g k o` creates the function of dimension `k`; `lastOpt` selects the options used in the last dimension. -/
def sumTrain (cn : Con K U O) (dim : Nat) (opts : List O) (g : Nat → O → C U) (lastOpt : Nat) : C (FT K U) := do
  let o0 ← rd opts 0
  let f0 ← g 0 o0
  let c1 ← cn.const 1 o0
  let Q0 ← qmaOf 1 2 [f0, c1]
  let cs ← wr (List.replicate dim none) 0 (some Q0)
  let rk ← wr (List.replicate (dim + 1) 0) 0 1
  let cs ← forR 1 (dim - 1) (fun k cs => do
    let o ← rd opts k
    let a ← cn.const 1 o
    let f ← g k o
    let z ← cn.const 0 o
    let b ← cn.const 1 o
    let Q ← qmaOf 2 2 [a, f, z, b]
    wr cs k (some Q)) cs
  let rk ← forR 1 (dim - 1) (fun k rk => wr rk k 2) rk
  let rk ← wr rk (dim - 1) 2
  let rk ← wr rk (dim - 1 + 1) 1
  let o ← rd opts lastOpt
  let a ← cn.const 1 o
  let f ← g (dim - 1) o
  let Q ← qmaOf 2 1 [a, f]
  let cs ← wr cs (dim - 1) (some Q)
  ftDone dim rk cs

/-- One-dimensional branch of the same constructors: `ranks[1]` keeps its initial 0. -/
def oneTrain (f : C U) : C (FT K U) := do
  let f ← f
  let Q ← qmaOf 1 1 [f]
  ftDone 1 [1, 0] [some Q]

/-- ft.c:1606-1665 `function_train_initsum`: with `dim = 1` the second function is written outside the 1 x 1 array. -/
def initsum (cn : Con K U O) (opts : List O) : C (FT K U) :=
  if opts.length = 1 then do
    let o ← rd opts 0
    let f ← cn.approx 0 o
    let c ← cn.const 1 o
    let Q ← qmaOf 1 1 [f, c]
    ftDone 1 [1, 0] [some Q]
  else sumTrain cn opts.length opts (fun k o => cn.approx k o) (opts.length - 1)

/-- ft.c:1761-1822 `function_train_linear`. -/
def linear (cn : Con K U O) (c : List K) (ldc : Nat) (a : List K) (lda : Nat) (opts : List O) : C (FT K U) :=
  let g := fun k o => do
    let ck ← rd c (k * ldc)
    let ak ← rd a (k * lda)
    cn.lin ck ak o
  if opts.length = 1 then do
    let o ← rd opts 0
    oneTrain (g 0 o)
  else sumTrain cn opts.length opts g (opts.length - 1)

/-- ft.c:2039-2110 `function_train_quadratic_aligned`: the options pointer is not advanced for the last dimension. -/
def quadraticAligned (cn : Con K U O) (coeffs m : List K) (opts : List O) : C (FT K U) :=
  let g := fun k o => do
    let ck ← rd coeffs k
    let mk ← rd m k
    cn.quad ck mk o
  if opts.length = 1 then do
    let o ← rd opts 0
    oneTrain (g 0 o)
  else sumTrain cn opts.length opts g (opts.length - 2)

/-- One call `generic_function_linear_update(ft->cores[k]->funcs[p], c[k*ldc], a[k*lda])`. -/
def linUpdAt (cn : Con K U O) (c : List K) (ldc : Nat) (a : List K) (lda : Nat) (k p : Nat) (cs : List (Qma U)) :
    C (List (Qma U)) := do
  let Q ← rd cs k
  let f ← rd Q.funcs p
  let ck ← rd c (k * ldc)
  let ak ← rd a (k * lda)
  let g ← cn.linUpd f ck ak
  let fs ← wr Q.funcs p g
  wr cs k { Q with funcs := fs }

/-- ft.c:1840-1868 `function_train_linear_update`. -/
def linearUpdate (cn : Con K U O) (ft : FT K U) (c : List K) (ldc : Nat) (a : List K) (lda : Nat) : C (FT K U) := do
  let cs ← linUpdAt cn c ldc a lda 0 0 ft.cores
  if ft.dim > 1 then do
    let cs ← forR 1 (ft.dim - 1) (fun k cs => linUpdAt cn c ldc a lda k 1 cs) cs
    let cs ← linUpdAt cn c ldc a lda (ft.dim - 1) 1 cs
    pure { ft with cores := cs }
  else pure { ft with cores := cs }

/-- Rank-one trains: a 1 x 1 core per dimension. -/
def rankOne (dim : Nat) (opts : List O) (g : Nat → O → C U) : C (FT K U) := do
  let cs ← forN dim (fun k cs => do
    let o ← rd opts k
    let f ← g k o
    let Q ← qmaOf 1 1 [f]
    wr cs k (some Q)) (List.replicate dim none)
  let rk ← forN dim (fun k rk => wr rk k 1) (List.replicate (dim + 1) 0)
  let rk ← wr rk dim 1
  ftDone dim rk cs

/-- ft.c:1714-1746 `function_train_constant`; `root a d` stands for `pow(fabs(a),1.0/d)`. The first dimension is written
before the loop in the code. -/
def constant [LinearOrder K] (cn : Con K U O) (root : K → Nat → K) (a : K) (opts : List O) : C (FT K U) :=
  let sign : K := if a < 0 then -1 else 1
  let apow := root a opts.length
  rankOne opts.length opts (fun k o => if k = 0 then cn.const (sign * apow) o else cn.const apow o)

/-- ft.c:1881-1922 `function_train_rankone_prod`. -/
def rankoneProd (cn : Con K U O) (coeffs : List K) (opts : List O) : C (FT K U) := do
  cassert (decide (opts.length > 1))
  rankOne opts.length opts (fun k o => do
    let c ← rd coeffs k
    cn.lin c 0 o)

/-- ft.c:1680-1698 `function_train_zeros`. -/
def zeros (cn : Con K U O) (opts : List O) (ranks : List Nat) : C (FT K U) := do
  let rk ← forN (opts.length + 1) (fun k rk => do
    let r ← rd ranks k
    wr rk k r) (List.replicate (opts.length + 1) 0)
  let cs ← forN opts.length (fun k cs => do
    let o ← rd opts k
    let r ← rd ranks k
    let r' ← rd ranks (k + 1)
    let c ← forN (r * r') (fun jj c => do
      let f ← cn.zero o
      wr c jj (some f)) (List.replicate (r * r') none)
    let fs ← allSome c
    wr cs k (some ⟨r, r', fs⟩)) (List.replicate opts.length none)
  ftDone opts.length rk cs

/-- Entry `(ll, kk)` of a middle core of ft.c:1936-2024 `function_train_quadratic`, `n = dim - onDim`. -/
def quadEntry (cn : Con K U O) (dim k : Nat) (coeffs m : List K) (o : O) (kk ll : Nat) : C U := do
  let n := dim - k
  let mk ← rd m k
  if ll = 0 ∧ kk = 0 then cn.const 1 o
  else if kk = 0 ∧ ll = 1 then cn.lin 1 (-mk) o
  else if ll = kk + 1 then cn.const 1 o
  else if ll = n + 1 ∧ kk = 0 then do
    let q ← rd coeffs (k * dim + k)
    cn.quad q mk o
  else if ll = n + 1 then do
    let p ← rd coeffs (k * dim + k + kk)
    let q ← rd coeffs ((k + kk) * dim + k)
    cn.lin (p + q) (-(p + q) * mk) o
  else cn.const 0 o

/-- ft.c:1936-2024 `function_train_quadratic`. -/
def quadratic (cn : Con K U O) (coeffs m : List K) (opts : List O) : C (FT K U) := do
  let dim := opts.length
  cassert (decide (dim > 1))
  let rk ← wr (List.replicate (dim + 1) 0) 0 1
  let o ← rd opts 0
  let c0 ← rd coeffs (0 * dim + 0)
  let m0 ← rd m 0
  let f ← cn.quad c0 m0 o
  let q ← wr (List.replicate (1 * (dim + 1)) none) 0 (some f)
  let q ← forR 1 dim (fun kk q => do
    let a ← rd coeffs (0 * dim + kk)
    let b ← rd coeffs (kk * dim + 0)
    let f ← cn.lin (a + b) (-(a + b) * m0) o
    wr q kk (some f)) q
  let f ← cn.const 1 o
  let q ← wr q dim (some f)
  let fs ← allSome q
  let cs ← wr (List.replicate dim none) 0 (some ⟨1, dim + 1, fs⟩)
  let cs ← forR 1 (dim - 1) (fun k cs => do
    let o ← rd opts k
    let q ← forN (dim - k + 1) (fun kk => forN (dim - k + 2) (fun ll q => do
      let f ← quadEntry cn dim k coeffs m o kk ll
      wr q (kk * (dim - k + 2) + ll) (some f))) (List.replicate ((dim - k + 2) * (dim - k + 1)) none)
    let fs ← allSome q
    wr cs k (some ⟨dim - k + 2, dim - k + 1, fs⟩)) cs
  let rk ← forR 1 (dim - 1) (fun k rk => wr rk k (dim - k + 2)) rk
  let k := dim - 1
  let o ← rd opts k
  let rk ← wr rk k (dim - k + 2)
  let f0 ← cn.const 1 o
  let mk ← rd m k
  let f1 ← cn.lin 1 (-mk) o
  let c ← rd coeffs (k * dim + k)
  let f2 ← cn.quad c mk o
  let Q ← qmaOf (dim - k + 2) 1 [f0, f1, f2]
  let cs ← wr cs k (some Q)
  let rk ← wr rk dim 1
  ftDone dim rk cs

end C3.Ft

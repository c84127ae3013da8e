/-
Stochastic gradient descent of c3/lib_optimization/optimization.c. The sequence of numbers returned by `rand()` is an argument. Printing,
tracing (`store_func = 0`) and the validation error (only printed) are left out, as are `previous_step` and `inter_step`, which are not used.
-/
import Verif.Opt.BfgsModel
import Verif.Lin.Model

namespace C3.Opt

open C3.Lin (dv)

variable {K : Type} [Field K] [LinearOrder K]

/-- optimization.c:1635-1646 `shuffle`; `st` is the number of calls of `rand()` so far and the array. -/
def shuffle (rmax : Nat) (rnd : Nat → Nat) (N : Nat) (st : Nat × List Nat) : C (Nat × List Nat) :=
  if N > 1 then
    forN (N - 1) (fun ii st => do
      let jj := ii + rnd st.1 / (rmax / (N - ii) + 1)
      let t ← rd st.2 jj
      let v ← rd st.2 ii
      let o ← wr st.2 jj v
      let o ← wr o ii t
      pure (st.1 + 1, o)) st
  else pure st

/-- The objective of `c3opt_add_objective_stoch` (optimization.c:945-955): value and gradient of one summand. -/
structure Sto (K : Type) where
  f : Nat → List K → K
  g : Nat → List K → List K

/-- Options read by `c3_opt_sgd`. -/
structure SPar (K : Type) where
  d : Nat
  ndata : Nat
  maxiter : Nat
  gtol : K
  relftol : K
  absxtol : K
  rate : K
  decay : K
  momentum : Bool

/-- optimization.c:1740 `(size_t) lrint(ndata / 1.1)`: the integer next to `10*ndata/11` (no ties occur; rounding errors of the division
are too small to matter for `ndata` below `2^48`). -/
def ndTrain (n : Nat) : Nat := (20 * n + 11) / 22

/-- The arrays of `c3_opt_sgd`, the counters and, as a ghost, the samples whose gradients were evaluated, newest first. -/
structure Sg (K : Type) where
  next : List K
  cur : List K
  w : List K
  m1 : List K
  m2 : List K
  acc : K
  nev : Nat
  ngv : Nat
  log : List Nat

/-- optimization.c:1814-1819 plain step. -/
def sgdPlain (d : Nat) (rate : K) (cur w next : List K) : C (List K) :=
  forN d (fun jj next => do
    let c ← rd cur jj
    let v ← rd w jj
    wr next jj (c - rate * v)) next

/-- optimization.c:1821-1830 step with momentum; `(next, m1, m2)`. -/
def sgdAdam (sq : K → K) (d : Nat) (rate : K) (time : Nat) (w : List K) (st : List K × List K × List K) : C (List K × List K × List K) :=
  forN d (fun jj st => do
    let v ← rd w jj
    let a ← rd st.2.1 jj
    let b ← rd st.2.2 jj
    let a := 9 / 10 * a + (1 - 9 / 10) * v
    let b := 999 / 1000 * b + (1 - 999 / 1000) * v * v
    let m1 ← wr st.2.1 jj a
    let m2 ← wr st.2.2 jj b
    let ca ← dv a (1 - (9 / 10) ^ time)
    let cb ← dv b (1 - (999 / 1000) ^ time)
    let q ← dv (-rate * ca) (sq cb + 1 / 10 ^ 8)
    let x ← rd st.1 jj
    let next ← wr st.1 jj (x + q)
    pure (next, m1, m2)) st

/-- optimization.c:1814-1831: plain steps in the first ten epochs or without momentum. -/
def sgdMove (sq : K → K) (p : SPar K) (iter : Nat) (rate : K) (cur w : List K) (s : Sg K) : C (List K × List K × List K) :=
  if p.momentum = false ∨ iter < 10 then do
    let next ← sgdPlain p.d rate cur w s.next
    pure (next, s.m1, s.m2)
  else sgdAdam sq p.d rate (iter + 1) w (s.next, s.m1, s.m2)

/-- optimization.c:1801-1832 one sample (`time` is `iter+1`). -/
def sgdSample (sq : K → K) (o : Sto K) (p : SPar K) (iter : Nat) (rate : K) (order : List Nat) (ii : Nat) (s : Sg K) : C (Sg K) := do
  let cur ← dcopy p.d s.next s.cur
  let gi ← ddot p.d s.w 1 s.w 1
  let k ← rd order ii
  let w := o.g k cur
  let m ← sgdMove sq p iter rate cur w s
  pure ⟨m.1, cur, w, m.2.1, m.2.2, s.acc + gi, s.nev + 1, s.ngv + 1, k :: s.log⟩

/-- optimization.c:1648-1672 `sgd_term_check` without the validation error: `xdiff` and `train_error`. -/
def sgdTerm (o : Sto K) (d : Nat) (next cur : List K) (ndt ndata : Nat) (order : List Nat) (nev : Nat) : C (K × K × Nat) := do
  let xdiff ← forN d (fun ii s => do
    let a ← rd next ii
    let b ← rd cur ii
    pure (s + (a - b) * (a - b))) 0
  let e ← forN ndt (fun ii s => do
    let k ← rd order ii
    pure (s + o.f k next)) 0
  let n ← C3.forR ndt ndata (fun ii n => do
    let _ ← rd order ii
    pure (n + 1)) (nev + ndt)
  let e ← dv e (ndt : K)
  pure (xdiff, e, n)

/-- optimization.c:1842-1845: the change of the training error, `none` is an infinite quotient. -/
def sgdDtrain (tr old : K) : Option K :=
  if old > 1 / 10 ^ 10 then if tr = 0 then none else some (|tr - old| / tr) else some |tr - old|

/-- `fabs(dtrain) < relftol`. -/
def dtLess (dt : Option K) (tol : K) : Prop := ∃ v, dt = some v ∧ |v| < tol

instance (dt : Option K) (tol : K) : Decidable (dtLess dt tol) :=
  match dt with
  | none => .isFalse fun ⟨_, h, _⟩ => by simp at h
  | some v => decidable_of_iff (|v| < tol) ⟨fun h => ⟨v, rfl, h⟩, fun ⟨_, h, h'⟩ => by injection h with h; rw [h]; exact h'⟩

/-- What `c3_opt_sgd` leaves behind; `train` is a ghost: the training set of the last epoch. -/
structure SRes (K : Type) where
  x : List K
  fval : K
  ret : Ret
  niters : Nat
  nev : Nat
  ngv : Nat
  log : List Nat
  train : List Nat
  deriving DecidableEq

/-- optimization.c:1871-1890 the tests at the end of an epoch; `some` is a `break`. -/
def sgdTest (p : SPar K) (iter : Nat) (gin : K) (dt : Option K) (xdiff rate : K) : Option Ret :=
  if iter > 5 then
    if gin < p.gtol then some .gtol
    else if dtLess dt p.relftol then some .ftol
    else if |xdiff| < p.absxtol then some .xtol
    else if rate < 1 / 10 ^ 20 then some .success
    else none
  else none

/-- The loop over the epochs, optimization.c:1796-1893; `left` is `maxiter - iter`. -/
def sgdLoop (sq : K → K) (rmax : Nat) (rnd : Nat → Nat) (o : Sto K) (p : SPar K) : Nat → Nat → K → K → Nat → List Nat → Sg K → List Nat → K →
    C (SRes K)
  | 0, iter, _, _, _, _, s, train, fval =>
    -- `iter > maxiter-1` in unsigned arithmetic, optimization.c:1897-1899
    pure ⟨s.next, fval, if p.maxiter = 0 then .success else .maxiter, iter, s.nev, s.ngv, s.log, train⟩
  | left + 1, iter, rate, old, cnt, order, s, _, _ => do
    let so ← shuffle rmax rnd p.ndata (cnt, order)
    let s ← forN (ndTrain p.ndata) (fun ii s => sgdSample sq o p iter rate so.2 ii s) { s with acc := 0 }
    let t ← sgdTerm o p.d s.next s.cur (ndTrain p.ndata) p.ndata so.2 s.nev
    let gin ← dv s.acc (ndTrain p.ndata : K)
    let s := { s with nev := t.2.2 }
    match sgdTest p iter gin (sgdDtrain t.2.1 old) t.1 (rate * p.decay) with
    | some c => pure ⟨s.next, t.2.1, c, iter + 1, s.nev, s.ngv, s.log, so.2.take (ndTrain p.ndata)⟩
    | none => sgdLoop sq rmax rnd o p left (iter + 1) (rate * p.decay) t.2.1 so.1 so.2 s (so.2.take (ndTrain p.ndata)) t.2.1

/-- optimization.c:1707-1907 `c3_opt_sgd`; `w` is the workspace, `fval` the number `*fval` before the call. -/
def optSgd (sq : K → K) (rmax : Nat) (rnd : Nat → Nat) (o : Sto K) (p : SPar K) (x w : List K) (fval : K) : C (SRes K) := do
  if p.ndata < 2 then .error .exit else do
    let so ← shuffle rmax rnd p.ndata (0, List.range p.ndata)
    sgdLoop sq rmax rnd o p p.maxiter 0 p.rate 0 so.1 so.2 ⟨x, x, w, List.replicate p.d 0, List.replicate p.d 0, 0, 0, 0, []⟩ [] fval

end C3.Opt

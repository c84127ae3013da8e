/-
Detection of jumps by polynomial annihilation (C144): c3/lib_funcs/piecewisepoly.c `eval_coeff`, `eval_jump`, `get_stencil`,
`minmod_eval`, `minmod_disc_exists`, `locate_jumps`. Exact arithmetic; `eps` is `DBL_EPSILON`, and `thr h` is `pow(10.0,floor(log10(h)))`.
Pointers into the arrays (`total+start`) are an array and an offset.
-/
import Verif.Core.Mem
import Mathlib.Algebra.Order.Field.Basic

namespace C3.Jmp

variable {K : Type} [Field K] [LinearOrder K]

/-- piecewisepoly.c:2070: the table `factorial`. -/
def factTab : List Nat := [1, 1, 2, 6, 24, 120, 720, 5040, 40320]

/-- piecewisepoly.c:2071-2084 `eval_coeff(l, t + off, n)`; `nstencil-1` is unsigned. Division by zero is undefined. -/
def evalCoeff (l : Nat) (t : List K) (off n : Nat) : C K := do
  cassert (decide (0 < n ∧ n - 1 ≤ 8))
  let m ← rd factTab (n - 1)
  forN n (fun ii (out : K) =>
    if ii = l then .ok out else do
      let a ← rd t (off + l)
      let b ← rd t (off + ii)
      if a - b = 0 then .error .ub else .ok (out / (a - b))) (m : K)

/-- piecewisepoly.c:2086-2102 `eval_jump(x, t + off, v + off, n)`. -/
def evalJump (eps x : K) (t : List K) (off : Nat) (v : List K) (n : Nat) : C K := do
  let s ← forN n (fun ii (s : K × K) => do
    let c ← evalCoeff ii t off n
    let a ← rd t (off + ii)
    let y ← rd v (off + ii)
    .ok (if x < a then s.1 + c else s.1, s.2 + c * y)) (0, 0)
  cassert (decide (eps ≤ |s.1|))
  if s.1 = 0 then .error .ub else .ok (s.2 / s.1)

/-- piecewisepoly.c:2111-2114: the first entry that is not below `x`; the first argument bounds the number of passes. -/
def scan (x : K) (t : List K) : Nat → Nat → C Nat
  | 0, _ => .error .diverge
  | k + 1, ii => do
    let a ← rd t ii
    if a < x then scan x t k (ii + 1) else .ok ii

/-- piecewisepoly.c:2129-2144: the stencil grows by one point. -/
def grow (x : K) (t : List K) (ntotal : Nat) (s : Nat × Nat) : C (Nat × Nat) :=
  if s.1 = 0 then .ok (s.1, s.2 + 1)
  else if s.2 = ntotal - 1 then .ok (s.1 - 1, s.2)
  else do
    let b ← rd t (s.2 + 1)
    let f ← rd t (s.1 - 1)
    if b - x < x - f then .ok (s.1, s.2 + 1) else .ok (s.1 - 1, s.2)

/-- piecewisepoly.c:2104-2150 `get_stencil`. -/
def getStencil (x : K) (nst : Nat) (t : List K) (ntotal : Nat) : C Nat := do
  cassert (decide (nst ≤ ntotal))
  let a0 ← rd t 0
  cassert (decide (a0 < x))
  let aN ← rd t (ntotal - 1)
  cassert (decide (x < aN))
  let ii ← scan x t (t.length + 1) 0
  if ii = 1 then .ok 0
  else if ii = ntotal - 1 then .ok (ntotal - nst)
  else do
    let s ← forN (nst - 2) (fun _ s => grow x t ntotal s) (ii - 1, ii)
    .ok s.1

/-- piecewisepoly.c:2169-2170 and 2180-2181: the jump function of order `m`. -/
def jumpAt (eps x : K) (t v : List K) (ntotal m : Nat) : C K := do
  let start ← getStencil x (m + 1) t ntotal
  evalJump eps x t start v (m + 1)

/-- piecewisepoly.c:2178-2198: one order; the second component tells whether the function has returned. -/
def mmStep (eps x : K) (t v : List K) (ntotal : Nat) (neg : Bool) (ii : Nat) (s : K × Bool) : C (K × Bool) :=
  if s.2 then .ok s else do
    let j ← jumpAt eps x t v ntotal ii
    if decide (j < 0) ≠ neg then .ok (0, true)
    else if neg = false then .ok (if j < s.1 then j else s.1, false)
    else .ok (if s.1 < j then j else s.1, false)

/-- piecewisepoly.c:2165-2200 `minmod_eval`. -/
def minmod (eps x : K) (t v : List K) (ntotal minm maxm : Nat) : C K := do
  let j ← jumpAt eps x t v ntotal minm
  let s ← forR (minm + 1) (maxm + 1) (mmStep eps x t v ntotal (decide (j < 0))) (j, false)
  .ok s.1

/-- piecewisepoly.c:2220-2228: the spacing; all distances are taken from the first point. -/
def spacing (t : List K) (ntotal : Nat) : C K := do
  let t1 ← rd t 1
  let t0 ← rd t 0
  forR 2 ntotal (fun ii h => do
    let a ← rd t ii
    let b ← rd t 0
    .ok (if a - b < h then a - b else h)) (t1 - t0)

/-- piecewisepoly.c:2215-2242 `minmod_disc_exists`. -/
def discExists (eps : K) (thr : K → K) (x : K) (t v : List K) (ntotal minm maxm : Nat) : C Bool := do
  let j ← minmod eps x t v ntotal minm maxm
  let h ← spacing t ntotal
  .ok (decide (¬ |j| ≤ thr h))

/-- array.c:271-281 `linspace(lb, ub, n + 1)`. -/
def lsp (lb ub : K) (n : Nat) : C (List K) := do
  let a ← forN n (fun ii a => wr a ii ((ii : K) * ((ub - lb) / (n : K)) + lb)) (List.replicate (n + 1) 0)
  wr a n ub

/-- piecewisepoly.c:2290-2300: one interval; `rec` is the recursive call. -/
def ljCell (eps : K) (thr : K → K) (rec : K → K → List K → C (List K)) (nsplit : Nat) (pts vals : List K) (ii : Nat) (edges : List K) :
    C (List K) := do
  let a ← rd pts ii
  let b ← rd pts (ii + 1)
  let disc ← discExists eps thr ((a + b) / 2) pts vals (nsplit + 1) 2 5
  let _ ← minmod eps ((a + b) / 2) pts vals (nsplit + 1) 2 5
  if disc then rec a b edges else .ok edges

/-- piecewisepoly.c:2257-2304 `locate_jumps`: the new list of edges. The first argument bounds the depth of the recursion. The function
is evaluated without failure. -/
def locate (eps : K) (thr : K → K) (f : K → K) (nsplit : Nat) (tol : K) : Nat → K → K → List K → C (List K)
  | 0, _, _, _ => .error .diverge
  | k + 1, lb, ub, edges =>
    if ub - lb < tol then .ok (edges ++ [(ub + lb) / 2])
    else do
      let pts ← lsp lb ub nsplit
      forN nsplit (ljCell eps thr (locate eps thr f nsplit tol k) nsplit pts (pts.map f)) edges

end C3.Jmp

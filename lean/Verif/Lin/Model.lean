/-
Linear elements (c3/lib_funcs/linelm.c): search, evaluation, derivative, parameter gradient, integral, inner product, algebra,
extrema, and constructors.

Numbers are elements of a linearly ordered field, i.e. exact. The tolerances `1e-15` and `1e-14` of the code are the argument
`tol`. A division by zero (infinity or NaN in the code) is the distinct outcome `ub`.
-/
import Verif.Core.Mem
import Mathlib.Algebra.Order.Field.Basic
import Mathlib.Algebra.Order.Group.Abs

namespace C3.Lin
variable {K : Type} [Field K] [LinearOrder K]

/-- linelm.h `struct LinElemExp`: number of nodes, nodes, coefficients (`diff` is never used). -/
structure LE (K : Type) where
  num : Nat
  nodes : List K
  coeff : List K
  deriving DecidableEq

/-- Division of doubles; a zero denominator is reported. -/
def dv (a b : K) : C K := if b = 0 then .error .ub else .ok (a / b)

/-- The loop of linelm.c:645-658; `fuel` bounds the number of iterations, running out of it is non-termination. -/
def bisect (tol : K) (nodes : List K) (x : K) : Nat → Nat → Nat → C Nat
  | 0, _, _ => .error .diverge
  | fuel + 1, lo, hi =>
    if lo + (hi - lo) / 2 = lo then .ok lo
    else do
      let v ← rd nodes (lo + (hi - lo) / 2)
      if |x - v| ≤ tol then .ok (lo + (hi - lo) / 2)
      else if x < v then bisect tol nodes x fuel lo (lo + (hi - lo) / 2)
      else bisect tol nodes x fuel (lo + (hi - lo) / 2) hi

/-- linelm.c:638-661 `lin_elem_exp_find_interval`. Without nodes `num_nodes-1` wraps and the search reads beyond the array. -/
def findInterval (tol : K) (f : LE K) (x : K) : C Nat :=
  if f.num = 0 then .error .oob else bisect tol f.nodes x f.num 0 (f.num - 1)

/-- linelm.c:682-689. -/
def evalAt (tol : K) (f : LE K) (x : K) (i : Nat) : C K := do
  let ni ← rd f.nodes i
  if |x - ni| ≤ tol then rd f.coeff i
  else do
    let nj ← rd f.nodes (i + 1)
    let t ← dv (nj - x) (nj - ni)
    let ci ← rd f.coeff i
    let cj ← rd f.coeff (i + 1)
    pure (ci * t + cj * (1 - t))

/-- linelm.c:672-690 `lin_elem_exp_eval`. -/
def eval (tol : K) (f : LE K) (x : K) : C K :=
  if f.num = 0 then .error .oob else do
  let a ← rd f.nodes 0
  let b ← rd f.nodes (f.num - 1)
  if x < a ∨ x > b then .ok 0
  else do
    let i ← findInterval tol f x
    evalAt tol f x i

/-- linelm.c:748-754 `lin_elem_exp_evalN`. -/
def evalN (tol : K) (f : LE K) (N : Nat) (x : List K) (incx : Nat) (y : List K) (incy : Nat) : C (List K) :=
  forN N (fun ii y => do
    let xi ← rd x (ii * incx)
    let v ← eval tol f xi
    wr y (ii * incy) v) y

/-- The difference quotients of linelm.c:710-729: `(coeff[j]-coeff[i]) / (nodes[j]-nodes[i])`. -/
def slope (f : LE K) (i j : Nat) : C K := do
  let cj ← rd f.coeff j
  let ci ← rd f.coeff i
  let nj ← rd f.nodes j
  let ni ← rd f.nodes i
  dv (cj - ci) (nj - ni)

/-- linelm.c:729-733. -/
def slopeAt (f : LE K) (i : Nat) : C K := do
  let nj ← rd f.nodes (i + 1)
  let ni ← rd f.nodes i
  let dtdx ← dv (-1) (nj - ni)
  let ci ← rd f.coeff i
  let cj ← rd f.coeff (i + 1)
  pure ((ci - cj) * dtdx)

/-- linelm.c:710-733. -/
def derivAt (tol : K) (f : LE K) (x : K) (i : Nat) : C K := do
  let ni ← rd f.nodes i
  if |x - ni| ≤ tol then
    if i = 0 then slope f i (i + 1)
    else if i < f.num - 1 then slope f (i - 1) (i + 1)
    else slope f (i - 1) i
  else slopeAt f i

/-- linelm.c:700-733 `lin_elem_exp_deriv_eval`. -/
def derivEval (tol : K) (f : LE K) (x : K) : C K :=
  if f.num = 0 then .error .oob else do
  let a ← rd f.nodes 0
  let b ← rd f.nodes (f.num - 1)
  if x < a ∨ x > b then .ok 0
  else do
    let i ← findInterval tol f x
    derivAt tol f x i

/-- linelm.c:805-828: the fourth-order quotient at node `ii`. -/
def deriv4 (f : LE K) (ii : Nat) : C K := do
  let np2 ← rd f.nodes (ii + 2)
  let nm2 ← rd f.nodes (ii - 2)
  let np1 ← rd f.nodes (ii + 1)
  let nm1 ← rd f.nodes (ii - 1)
  let n0 ← rd f.nodes ii
  let cp2 ← rd f.coeff (ii + 2)
  let cm2 ← rd f.coeff (ii - 2)
  let cp1 ← rd f.coeff (ii + 1)
  let cm1 ← rd f.coeff (ii - 1)
  let r ← dv ((np2 - n0) ^ 3 + (n0 - nm2) ^ 3) ((np1 - n0) ^ 3 + (n0 - nm1) ^ 3)
  dv (r * (cp1 - cm1) - cp2 + cm2) (r * (np1 - nm1) - (np2 - nm2))

/-- linelm.c:785-837, the coefficient at node `ii`. -/
def derivNode (f : LE K) (ii : Nat) : C K :=
  if ii = 0 then slope f 0 1
  else if ii = f.num - 1 then slope f (f.num - 2) (f.num - 1)
  else if f.num ≤ 5 then slope f (ii - 1) (ii + 1)
  else if ii = 1 ∨ ii = f.num - 2 then slope f (ii - 1) (ii + 1)
  else deriv4 f ii

/-- linelm.c:779-837 `lin_elem_exp_deriv`: the coefficients are written in one pass over the nodes (the code has one
statement or loop per case; each node is written once). -/
def deriv (f : LE K) : C (LE K) := do
  cassert (decide (f.num > 1))
  let c ← forN f.num (fun ii c => do
    let v ← derivNode f ii
    wr c ii v) f.coeff
  pure { f with coeff := c }

/-- linelm.c:1018-1044 `lin_elem_exp_param_grad_eval2`: value and gradient. -/
def paramGrad2 (tol : K) (f : LE K) (x : K) (grad : List K) : C (K × List K) := do
  let i ← findInterval tol f x
  let grad ← forN i (fun jj g => wr g jj 0) grad
  let grad ← forR (i + 2) f.num (fun jj g => wr g jj 0) grad
  let nj ← rd f.nodes (i + 1)
  let ni ← rd f.nodes i
  let t ← dv (nj - x) (nj - ni)
  let grad ← wr grad i t
  let grad ← wr grad (i + 1) (1 - t)
  let ci ← rd f.coeff i
  let cj ← rd f.coeff (i + 1)
  pure (ci * t + cj * (1 - t), grad)

/-- linelm.c:970-1006 `lin_elem_exp_param_grad_eval`, body for point `ii`. -/
def paramGradAt (tol : K) (f : LE K) (x : K) (ii : Nat) (grad : List K) : C (List K) := do
  let i ← findInterval tol f x
  let grad ← forN i (fun jj g => wr g (ii * f.num + jj) 0) grad
  let grad ← forR (i + 2) f.num (fun jj g => wr g (ii * f.num + jj) 0) grad
  let nj ← rd f.nodes (i + 1)
  let ni ← rd f.nodes i
  let t ← dv (nj - x) (nj - ni)
  let grad ← wr grad (ii * f.num + i) t
  wr grad (ii * f.num + i + 1) (1 - t)

/-- linelm.c:970-1006 `lin_elem_exp_param_grad_eval`. -/
def paramGrad (tol : K) (f : LE K) (nx : Nat) (x : List K) (grad : List K) : C (List K) :=
  forN nx (fun ii grad => do
    let xi ← rd x ii
    paramGradAt tol f xi ii grad) grad

/-- linelm.c:1120-1136 `lin_elem_exp_integrate`; also 1321-1335 `lin_elem_exp_inner_same` with `c` the products of the two
coefficient arrays (there the number of nodes is not checked). -/
def trap (num : Nat) (nodes : List K) (c : Nat → C K) : C K := do
  let n1 ← rd nodes 1
  let n0 ← rd nodes 0
  let c0 ← c 0
  let s ← forR 1 (num - 1) (fun ii s => do
    let np ← rd nodes (ii + 1)
    let nm ← rd nodes (ii - 1)
    let ci ← c ii
    pure (s + ci * (np - nm) * (1 / 2))) (c0 * (n1 - n0) * (1 / 2))
  let nl ← rd nodes (num - 1)
  let nk ← rd nodes (num - 2)
  let cl ← c (num - 1)
  pure (s + cl * (nl - nk) * (1 / 2))

/-- linelm.c:1120-1136 `lin_elem_exp_integrate`. -/
def integrate (f : LE K) : C K := do
  cassert (decide (f.num > 1))
  trap f.num f.nodes (fun i => rd f.coeff i)

/-- linelm.c:1156-1169 `lin_elem_sdiscp`; the loop stops at the first difference, here every pair is looked at (the arrays
have the stated length, so this is the same answer). -/
def sdiscp (tol : K) (f g : LE K) : C Bool :=
  if f.num ≠ g.num then .ok false
  else forN f.num (fun ii b => do
    let x ← rd f.nodes ii
    let y ← rd g.nodes ii
    pure (b && decide (|x - y| ≤ tol))) true

/-- linelm.c:1283-1339 `lin_elem_exp_inner_same`. With fewer than two nodes it reads `x[1]` of a shorter grid. -/
def innerSame (N : Nat) (x f g : List K) : C K :=
  trap N x (fun i => do
    let a ← rd f i
    let b ← rd g i
    pure (a * b))

/-- linelm.c:1239-1244: `while (nodes[i+1] < lo) i++`; running beyond the array is an error. -/
def skipTo (nodes : List K) (lo : K) : Nat → Nat → C Nat
  | 0, _ => .error .oob
  | fuel + 1, i => do
    let v ← rd nodes (i + 1)
    if v < lo then skipTo nodes lo fuel (i + 1) else .ok i

/-- linelm.c:1246-1270: merge of the two grids until one is exhausted; result: nodes with both values. -/
def mergeInner (tol : K) (f g : LE K) : Nat → Nat → Nat → List (K × K × K) → C (List (K × K × K))
  | 0, _, _, _ => .error .diverge
  | fuel + 1, i, j, acc =>
    if i < f.num ∧ j < g.num then do
      let a ← rd f.nodes i
      let b ← rd g.nodes j
      if |a - b| < tol then do
        let u ← rd f.coeff i
        let w ← rd g.coeff j
        mergeInner tol f g fuel (i + 1) (j + 1) (acc ++ [(a, u, w)])
      else if a < b then do
        let u ← rd f.coeff i
        let w ← eval tol g a
        mergeInner tol f g fuel (i + 1) j (acc ++ [(a, u, w)])
      else if b < a then do
        let u ← eval tol f b
        let w ← rd g.coeff j
        mergeInner tol f g fuel i (j + 1) (acc ++ [(b, u, w)])
      else mergeInner tol f g fuel i j acc
    else .ok acc

/-- linelm.c:1221-1271 `lin_elem_exp_inner_same_grid`. -/
def innerGrid (tol : K) (f g : LE K) : C (List (K × K × K)) := do
  let f0 ← rd f.nodes 0
  let gl ← rd g.nodes (g.num - 1)
  let g0 ← rd g.nodes 0
  let fl ← rd f.nodes (f.num - 1)
  if f0 > gl then .ok []
  else if g0 > fl then .ok []
  else do
    let i ← skipTo f.nodes g0 f.num 0
    let j ← skipTo g.nodes f0 g.num 0
    mergeInner tol f g (f.num + g.num + 1) i j []

/-- linelm.c:1380-1402: with at most two merged nodes an assertion fails. -/
def innerMerged (m : List (K × K × K)) : C K :=
  if m.length > 2 then innerSame m.length (m.map (·.1)) (m.map (·.2.1)) (m.map (·.2.2)) else .error .assertFail

/-- linelm.c:1349-1408 `lin_elem_exp_inner`. -/
def inner (tol : K) (f g : LE K) : C K := do
  let b ← sdiscp tol f g
  if b then innerSame f.num f.nodes f.coeff g.coeff
  else do
    let m ← innerGrid tol f g
    innerMerged m

/-- linelm.c:1423-1429 `lin_elem_exp_axpy_same`. -/
def axpySame (a : K) (f g : LE K) : C (LE K) := do
  let c ← forN g.num (fun i c => do
    let u ← rd f.coeff i
    let w ← rd c i
    wr c i (a * u + w)) g.coeff
  pure { g with coeff := c }

/-- linelm.c:1446-1482 `lin_elem_exp_interp_same_grid`. -/
def mergeGrid (tol : K) (f g : LE K) : Nat → Nat → Nat → List K → C (List K)
  | 0, _, _, _ => .error .diverge
  | fuel + 1, i, j, acc =>
    if i < f.num ∨ j < g.num then
      if i = f.num then do
        let b ← rd g.nodes j
        mergeGrid tol f g fuel i (j + 1) (acc ++ [b])
      else if j = g.num then do
        let a ← rd f.nodes i
        mergeGrid tol f g fuel (i + 1) j (acc ++ [a])
      else do
        let a ← rd f.nodes i
        let b ← rd g.nodes j
        if |a - b| < tol then mergeGrid tol f g fuel (i + 1) (j + 1) (acc ++ [a])
        else if a < b then mergeGrid tol f g fuel (i + 1) j (acc ++ [a])
        else if b < a then mergeGrid tol f g fuel i (j + 1) (acc ++ [b])
        else mergeGrid tol f g fuel i j acc
    else .ok acc

/-- linelm.c:1512-1528. -/
def axpyMerged (tol a : K) (f g : LE K) : C (LE K) := do
  let x ← mergeGrid tol f g (f.num + g.num + 1) 0 0 []
  let c ← forN x.length (fun ii c => do
    let xi ← rd x ii
    let u ← eval tol f xi
    let w ← eval tol g xi
    wr c ii (a * u + w)) (List.replicate (f.num + g.num) 0)
  pure ⟨x.length, x, c.take x.length⟩

/-- linelm.c:1503-1530 `lin_elem_exp_axpy`. -/
def axpy (tol a : K) (f g : LE K) : C (LE K) := do
  let b ← sdiscp tol f g
  if b then axpySame a f g else axpyMerged tol a f g

/-- linelm.c:2324-2329 `lin_elem_exp_scale`; 2226-2232 `lin_elem_exp_flip_sign` is the case `a = -1` with a check. -/
def scale (a : K) (f : LE K) : C (LE K) := do
  let c ← forN f.num (fun i c => do
    let u ← rd c i
    wr c i (u * a)) f.coeff
  pure { f with coeff := c }

/-- linelm.c:2226-2232 `lin_elem_exp_flip_sign`. -/
def flipSign (f : LE K) : C (LE K) := do
  let f ← scale (-1) f
  cassert (decide (f.num ≠ 0))
  pure f

/-- The scans of linelm.c:1608-1641 and 1657-1680: `better new old` decides whether node `ii` replaces the current one; `g` is
the identity or `fabs`. Result: value and location. -/
def scan (f : LE K) (g : K → K) (better : K → K → Bool) : C (K × K) := do
  let c0 ← rd f.coeff 0
  let n0 ← rd f.nodes 0
  forR 1 f.num (fun ii s => do
    let c ← rd f.coeff ii
    if better (g c) s.1 then do
      let n ← rd f.nodes ii
      pure (g c, n)
    else pure s) (g c0, n0)

/-- linelm.c:1608-1619 `lin_elem_exp_max`. -/
def max (f : LE K) : C (K × K) := scan f id (fun a b => decide (a > b))

/-- linelm.c:1630-1641 `lin_elem_exp_min`. -/
def min (f : LE K) : C (K × K) := scan f id (fun a b => decide (a < b))

/-- linelm.c:1653-1680 `lin_elem_exp_absmax` without optimization nodes (the location is a double: on the modelled platform
`size_t` has the same size, so the index variant is never taken). -/
def absmax (f : LE K) : C (K × K) := scan f (fun c => |c|) (fun a b => decide (a > b))

/-- linelm.c:1681-1695 `lin_elem_exp_absmax` over given points. -/
def absmaxOver (tol : K) (f : LE K) (pts : List K) : C (K × K) := do
  let p0 ← rd pts 0
  let v0 ← eval tol f p0
  forN pts.length (fun ii s => do
    let p ← rd pts ii
    let v ← eval tol f p
    if |v| > s.1 then pure (|v|, p) else pure s) (|v0|, p0)

/-- Options used by the constructors: linelm.h `struct LinElemExpAopts` (nodes, bounds). -/
structure Opts (K : Type) where
  num : Nat
  nodes : List K
  lb : K
  ub : K

/-- linelm.c:2124-2132: `linspace(lb,ub,2)` or a copy of the given nodes. -/
def gridOf (o : Opts K) : C (Nat × List K) :=
  if o.num = 0 then .ok (2, [o.lb, o.ub])
  else if o.num ≤ o.nodes.length then .ok (o.num, o.nodes.take o.num) else .error .oob

/-- linelm.c:2155-2175 `lin_elem_exp_linear`; 2119-2139 `lin_elem_exp_constant` has the same loop with value `a`. -/
def linear (a b : K) (o : Opts K) : C (LE K) := do
  let g ← gridOf o
  let c ← forN g.1 (fun ii c => do
    let x ← rd g.2 ii
    wr c ii (a * x + b)) (List.replicate g.1 0)
  pure ⟨g.1, g.2, c⟩

/-- linelm.c:2119-2139 `lin_elem_exp_constant`. -/
def constant (a : K) (o : Opts K) : C (LE K) := do
  let g ← gridOf o
  let c ← forN g.1 (fun ii c => wr c ii a) (List.replicate g.1 0)
  pure ⟨g.1, g.2, c⟩

end C3.Lin

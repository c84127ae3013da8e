/-
Piecewise constant elements (c3/lib_funcs/constelm.c): search for the nearest node, evaluation, parameter gradient, integral,
inner product, algebra, extrema, constructors.

Numbers are elements of a linearly ordered field, i.e. exact; the tolerances `1e-15` and `1e-14` of the code are the argument
`tol`. The expansions have the layout of linear elements (`Lin.LE`), and routines with the same code are those of `Lin.Model`.
-/
import Verif.Lin.Model
import Verif.Lin.Approx

namespace C3.Pc
open C3.Lin (dv)
variable {K : Type} [Field K] [LinearOrder K]

/-- c3/lib_funcs/constelm.h:92-98 `struct ConstElemExp`: number of nodes, nodes, coefficients. -/
abbrev CE (K : Type) := Lin.LE K

/-- constelm.c:589-607: bisection, then the nearer of the two neighbours; `fuel` bounds the number of iterations. -/
def search (tol : K) (nodes : List K) (x : K) : Nat → Nat → Nat → C Nat
  | 0, _, _ => .error .diverge
  | fuel + 1, lo, hi =>
    if lo + (hi - lo) / 2 = lo then do
      let a ← rd nodes lo
      let b ← rd nodes (lo + 1)
      if x - a < b - x then .ok lo else .ok (lo + 1)
    else do
      let v ← rd nodes (lo + (hi - lo) / 2)
      if |x - v| ≤ tol then .ok (lo + (hi - lo) / 2)
      else if x < v then search tol nodes x fuel lo (lo + (hi - lo) / 2)
      else search tol nodes x fuel (lo + (hi - lo) / 2) hi

/-- constelm.c:582-609 `const_elem_exp_find_node`. Without nodes `num_nodes-1` wraps and the search reads beyond the array. -/
def findNode (tol : K) (f : CE K) (x : K) : C Nat :=
  if f.num = 0 then .error .oob else search tol f.nodes x f.num 0 (f.num - 1)

/-- constelm.c:614-636 `const_elem_exp_find_node_val`, `const_elem_exp_eval`. -/
def eval (tol : K) (f : CE K) (x : K) : C K :=
  if f.num = 0 then .error .oob else do
  let a ← rd f.nodes 0
  let b ← rd f.nodes (f.num - 1)
  if x < a ∨ x > b then .ok 0
  else do
    let i ← findNode tol f x
    rd f.coeff i

/-- constelm.c:639-644 `const_elem_exp_deriv_eval`. -/
def derivEval (_ : CE K) (_ : K) : K := 0

/-- constelm.c:656-662 `const_elem_exp_evalN`. -/
def evalN (tol : K) (f : CE K) (N : Nat) (x : List K) (incx : Nat) (y : List K) (incy : Nat) : C (List K) :=
  forN N (fun ii y => do
    let xi ← rd x (ii * incx)
    let v ← eval tol f xi
    wr y (ii * incy) v) y

/-- constelm.c:696-701: the quotient of differences of the array `c` (which holds the coefficients overwritten so far). -/
def quot (nodes c : List K) (i j : Nat) : C K := do
  let cj ← rd c j
  let ci ← rd c i
  let nj ← rd nodes j
  let ni ← rd nodes i
  dv (cj - ci) (nj - ni)

/-- constelm.c:689-704 `const_elem_exp_deriv`: coefficients are overwritten in place; the last quotient uses the previous
coefficient after it was overwritten. -/
def deriv (f : CE K) : C (CE K) := do
  cassert (decide (f.num > 1))
  let v ← quot f.nodes f.coeff 0 1
  let c ← wr f.coeff 0 v
  let c ← forR 1 (f.num - 1) (fun ii c => do
    let v ← quot f.nodes c ii (ii + 1)
    wr c ii v) c
  let v ← quot f.nodes c (f.num - 2) (f.num - 1)
  let c ← wr c (f.num - 1) v
  pure { f with coeff := c }

/-- constelm.c:748-761: one row of the gradient; the entry after the nearest node is not written. -/
def gradRow (tol : K) (f : CE K) (x : K) (off : Nat) (grad : List K) : C (List K) := do
  let i ← findNode tol f x
  let grad ← forN i (fun jj g => wr g (off + jj) 0) grad
  let grad ← forR (i + 2) f.num (fun jj g => wr g (off + jj) 0) grad
  wr grad (off + i) 1

/-- constelm.c:741-766 `const_elem_exp_param_grad_eval`. -/
def paramGrad (tol : K) (f : CE K) (nx : Nat) (x : List K) (grad : List K) : C (List K) :=
  forN nx (fun ii grad => do
    let xi ← rd x ii
    gradRow tol f xi (ii * f.num) grad) grad

/-- constelm.c:778-798 `const_elem_exp_param_grad_eval2`: the value returned is the node, not the coefficient. -/
def paramGrad2 (tol : K) (f : CE K) (x : K) (grad : List K) : C (K × List K) := do
  let grad ← gradRow tol f x 0 grad
  let i ← findNode tol f x
  let v ← rd f.nodes i
  pure (v, grad)

/-- The weighted sum of constelm.c:855-866 and 914-925 (`c` the coefficients or the products of two coefficients). With fewer
than two nodes `N-1` or `N-2` wraps and the arrays are read out of bounds. -/
def cells (N : Nat) (x : List K) (c : Nat → C K) : C K :=
  if N < 2 then .error .oob else do
  let x1 ← rd x 1
  let x0 ← rd x 0
  let c0 ← c 0
  let s ← forR 1 (N - 1) (fun ii (s : K × K) => do
    let xp ← rd x (ii + 1)
    let xi ← rd x ii
    let ci ← c ii
    pure (s.1 + ci * (s.2 + (xp - xi) / 2), (xp - xi) / 2)) (c0 * ((x1 - x0) / 2), (x1 - x0) / 2)
  let xl ← rd x (N - 1)
  let xk ← rd x (N - 2)
  let cl ← c (N - 1)
  pure (s.1 + cl * ((xl - xk) / 2))

/-- constelm.c:852-867 `const_elem_exp_integrate`. -/
def integrate (f : CE K) : C K := do
  cassert (decide (f.num > 1))
  cells f.num f.nodes (fun i => rd f.coeff i)

/-- constelm.c:909-926 `const_elem_exp_inner_same`. -/
def innerSame (N : Nat) (x f g : List K) : C K :=
  cells N x (fun i => do
    let a ← rd f i
    let b ← rd g i
    pure (a * b))

/-- constelm.c:967-990: merge of the two grids until one is exhausted; result: nodes with both values. -/
def mergeInner (tol : K) (f g : CE K) : Nat → Nat → Nat → List (K × K × K) → C (List (K × K × K))
  | 0, _, _, _ => .error .diverge
  | fuel + 1, i, j, acc =>
    if i < f.num ∧ j < g.num then do
      let a ← rd f.nodes i
      let b ← rd g.nodes j
      if |a - b| < tol then do
        let u ← rd f.coeff i
        let w ← rd g.coeff j
        mergeInner tol f g fuel (i + 1) (j + 1) (acc ++ [(a, u, w)])
      else if a < b then do
        let u ← rd f.coeff i
        let w ← eval tol g a
        mergeInner tol f g fuel (i + 1) j (acc ++ [(a, u, w)])
      else if b < a then do
        let u ← eval tol f b
        let w ← rd g.coeff j
        mergeInner tol f g fuel i (j + 1) (acc ++ [(b, u, w)])
      else mergeInner tol f g fuel i j acc
    else .ok acc

/-- constelm.c:945-993 `const_elem_exp_same_interp`. -/
def innerGrid (tol : K) (f g : CE K) : C (List (K × K × K)) := do
  let f0 ← rd f.nodes 0
  let gl ← rd g.nodes (g.num - 1)
  let g0 ← rd g.nodes 0
  let fl ← rd f.nodes (f.num - 1)
  if f0 > gl then .ok []
  else if g0 > fl then .ok []
  else do
    let i ← Lin.skipTo f.nodes g0 f.num 0
    let j ← Lin.skipTo g.nodes f0 g.num 0
    mergeInner tol f g (f.num + g.num + 1) i j []

/-- constelm.c:1002-1024 `const_elem_exp_inner`; `Lin.sdiscp` is 885-897 `const_elem_sdiscp`. -/
def inner (tol : K) (f g : CE K) : C K := do
  let b ← Lin.sdiscp tol f g
  if b then innerSame f.num f.nodes f.coeff g.coeff
  else do
    let m ← innerGrid tol f g
    innerSame m.length (m.map (·.1)) (m.map (·.2.1)) (m.map (·.2.2))

/-- constelm.c:1127-1139; `Lin.mergeGrid` is 1062-1100 `const_elem_exp_interp_same_grid`. -/
def axpyMerged (tol a : K) (f g : CE K) : C (CE K) := do
  let x ← Lin.mergeGrid tol f g (f.num + g.num + 1) 0 0 []
  let c ← forN x.length (fun ii c => do
    let xi ← rd x ii
    let u ← eval tol f xi
    let w ← eval tol g xi
    wr c ii (a * u + w)) (List.replicate (f.num + g.num) 0)
  pure ⟨x.length, x, c.take x.length⟩

/-- constelm.c:1116-1143 `const_elem_exp_axpy`; `Lin.axpySame` is 1039-1045 `const_elem_exp_axpy_same`. -/
def axpy (tol a : K) (f g : CE K) : C (CE K) := do
  let b ← Lin.sdiscp tol f g
  if b then Lin.axpySame a f g else axpyMerged tol a f g

/-- constelm.c:1155-1172 `const_elem_exp_prod`; different grids fail an assertion. -/
def prod (tol : K) (f g : CE K) : C (CE K) := do
  let b ← Lin.sdiscp tol f g
  cassert b
  let c ← forN f.num (fun ii c => do
    let u ← rd c ii
    let w ← rd g.coeff ii
    wr c ii (u * w)) f.coeff
  pure { f with coeff := c }

/-- constelm.c:1546-1551 `const_elem_exp_scale`, 1452-1458 `const_elem_exp_flip_sign` (same code as for linear elements). -/
def scale (a : K) (f : CE K) : C (CE K) := Lin.scale a f
def flipSign (f : CE K) : C (CE K) := Lin.flipSign f

/-- constelm.c:1195-1206 `const_elem_exp_max`, 1216-1227 `const_elem_exp_min`, 1243-1264 `const_elem_exp_absmax` without points
(same code as for linear elements): value and location. -/
def max (f : CE K) : C (K × K) := Lin.max f
def min (f : CE K) : C (K × K) := Lin.min f
def absmax (f : CE K) : C (K × K) := Lin.absmax f

/-- constelm.c:1265-1278 `const_elem_exp_absmax` over given points. -/
def absmaxOver (tol : K) (f : CE K) (pts : List K) : C (K × K) := do
  let p0 ← rd pts 0
  let v0 ← eval tol f p0
  forN pts.length (fun ii s => do
    let p ← rd pts ii
    let v ← eval tol f p
    if |v| > s.1 then pure (|v|, p) else pure s) (|v0|, p0)

/-- constelm.c:100-119 `const_elem_exp_aopts_alloc`: `lb` is assigned twice, `ub` not at all. -/
structure AOpts (K : Type) where
  num : Nat
  nodes : Option (List K)
  lb : K
  ub : Option K
  adapt : Bool

def aoptsAlloc (num : Nat) (x : Option (List K)) : C (AOpts K) :=
  match x with
  | none => .error .assertFail
  | some x =>
    if num = 0 then .error .oob else do
    let _ ← rd x 0
    let l ← rd x (num - 1)
    pure ⟨num, some x, l, none, false⟩

/-- constelm.c:133-158 `const_elem_exp_aopts_alloc_adapt`. -/
def aoptsAdapt (num : Nat) (x : Option (List K)) (lb ub : K) : AOpts K :=
  ⟨num, if num > 0 then x else none, lb, some ub, true⟩

/-- constelm.c:203-207 `const_elem_exp_aopts_get_ub`: an unset field is undefined. -/
def getUb (o : AOpts K) : C K :=
  match o.ub with
  | none => .error .ub
  | some u => .ok u

/-- constelm.c:194-198 `const_elem_exp_aopts_get_lb`. -/
def getLb (o : AOpts K) : K := o.lb

/-- constelm.c:1290-1315 `const_elem_exp_approx`. The function to be approximated is total (its error code is ignored). -/
def approx (o : AOpts K) (F : K → K) : C (CE K) :=
  if o.adapt then .error .assertFail
  else match o.nodes with
    | none => .error .assertFail
    | some x =>
      if x.length < o.num then .error .oob
      else do
        let c ← forN o.num (fun i c => do
          let y ← rd x i
          wr c i (F y)) (List.replicate o.num 0)
        pure ⟨o.num, x.take o.num, c⟩

/-- constelm.c:1369-1377, 1337-1345: `linspace(lb,ub,2)` or a copy of the given nodes. -/
def gridOf (o : AOpts K) : C (Nat × List K) :=
  if o.num = 0 then do
    let u ← getUb o
    pure (2, [o.lb, u])
  else match o.nodes with
    | none => .error .null
    | some x => if x.length < o.num then .error .oob else .ok (o.num, x.take o.num)

/-- constelm.c:1363-1384 `const_elem_exp_constant`; with `a = 0` also 1327-1352 `const_elem_exp_zero`. -/
def constant (a : K) (o : AOpts K) : C (CE K) := do
  let g ← gridOf o
  let c ← forN g.1 (fun ii c => wr c ii a) (List.replicate g.1 0)
  cassert (decide (g.1 ≠ 0))
  pure ⟨g.1, g.2, c⟩

/-- constelm.c:421-438 `const_elem_exp_create_with_params`. -/
def createWithParams (o : AOpts K) (dim : Nat) (param : List K) : C (CE K) := do
  cassert (decide (o.num = dim))
  match o.nodes with
  | none => .error .assertFail
  | some x => if x.length < dim ∨ param.length < dim then .error .oob else pure ⟨dim, x.take dim, param.take dim⟩

/-- constelm.c:513-524 `const_elem_exp_update_params`. -/
def updateParams (f : CE K) (dim : Nat) (param : List K) : C (CE K) := do
  cassert (decide (f.num = dim))
  let c ← forN dim (fun ii c => do
    let v ← rd param ii
    wr c ii v) f.coeff
  pure { f with coeff := c }

/-- constelm.c:482-487 `const_elem_exp_get_params`. -/
def getParams (f : CE K) (param : List K) : C (List K) :=
  forN f.num (fun ii p => do
    let v ← rd f.coeff ii
    wr p ii v) param

/-- constelm.c:1600-1718 `const_elem_exp_onezero`. `Lin.onezeroAdapt` is 1605-1696 (free nodes; without zeros the two nodes are
zero) and `Lin.onezeroFixed` 1699-1716 after `const_elem_exp_init` has checked the number of nodes; same code. -/
def onezero (tol : K) (zeros : List K) (o : AOpts K) : C (CE K) :=
  if o.adapt then do
    let u ← getUb o
    Lin.onezeroAdapt tol zeros o.lb u
  else match o.nodes with
    | none => .error .assertFail
    | some x => do
      cassert (decide (o.num > zeros.length))
      cassert (decide (o.num > 1))
      Lin.onezeroFixed tol zeros o.num x

end C3.Pc

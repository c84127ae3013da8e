/-
The limited memory BFGS optimizer of c3/lib_optimization/optimization.c: the circular list of stored pairs on a heap of nodes, the two loop
recursion, the optimizer. Tracing, printing, freeing and NaN are left out. Division by zero is the outcome `Err.ub` (in C: an infinity or NaN
that is then propagated).
-/
import Verif.Opt.BfgsModel

namespace C3.Opt

variable {K : Type} [Field K] [LinearOrder K]

/-- optimization.c:2217-2225 `struct c3opt_lbfgs_data`; pointers are addresses of the heap, `none` is NULL. -/
structure Node (K : Type) where
  iter : Nat
  s : List K
  y : List K
  rhoinv : K
  next : Option Nat
  prev : Option Nat
  deriving DecidableEq

/-- optimization.c:2276-2286 `struct c3opt_lbfgs_list` together with the heap of its nodes. -/
structure LL (K : Type) where
  m : Nat
  d : Nat
  size : Nat
  head : Option Nat
  step : Nat
  cstep : Option Nat
  heap : List (Node K)

/-- optimization.c:2295-2309 `c3opt_lbfgs_list_alloc`. -/
def LL.alloc (m d : Nat) : LL K := ⟨m, d, 0, none, 0, none, []⟩

/-- Dereferencing a pointer to a node. -/
def deref (heap : List (Node K)) : Option Nat → C (Node K)
  | none => .error .null
  | some a => rd heap a

/-- A pointer that is going to be written through must not be NULL. -/
def addr : Option Nat → C Nat
  | none => .error .null
  | some a => pure a

/-- optimization.c:2371-2373 walking to the end of the list. -/
def walkEnd (heap : List (Node K)) : Nat → Nat → C Nat
  | 0, _ => .error .diverge
  | fuel + 1, a => do
    let n ← rd heap a
    match n.next with
    | none => pure a
    | some b => walkEnd heap fuel b

/-- The node to be filled: its address, content and the heap containing it. -/
structure Pick (K : Type) where
  a : Nat
  nd : Node K
  heap : List (Node K)

/-- optimization.c:2326-2341: the oldest node of a full list, or a new one. -/
def pick (l : LL K) : C (Pick K) :=
  if l.size ≥ l.m then do
    let h ← deref l.heap l.head
    let a ← addr h.prev
    let n ← rd l.heap a
    pure ⟨a, n, l.heap⟩
  else
    let n : Node K := ⟨0, List.replicate l.d 0, List.replicate l.d 0, 0, none, none⟩
    pure ⟨l.heap.length, n, l.heap ++ [n]⟩

/-- optimization.c:2359-2387: linking the filled node `nd` at address `a` to the list. -/
def link (l : LL K) (a : Nat) (nd : Node K) (heap : List (Node K)) : C (LL K) :=
  if l.size ≥ l.m then do
    let heap ← wr heap a { nd with next := l.head }
    pure ⟨l.m, l.d, l.size, some a, 0, l.cstep, heap⟩
  else if l.size > 0 then do
    let h ← addr l.head
    let hn ← rd heap h
    let heap ← wr heap h { hn with prev := some a }
    let nd := { nd with next := l.head }
    let heap ← wr heap a nd
    if l.size + 1 = l.m then do
      let e ← walkEnd heap (heap.length + 1) h
      let heap ← wr heap a { nd with prev := some e }
      pure ⟨l.m, l.d, l.size + 1, some a, 0, l.cstep, heap⟩
    else pure ⟨l.m, l.d, l.size + 1, some a, 0, l.cstep, heap⟩
  else do
    let heap ← wr heap a { nd with next := none, prev := none }
    pure ⟨l.m, l.d, 1, some a, 0, l.cstep, heap⟩

/-- optimization.c:2321-2387 `c3opt_lbfgs_list_insert`. -/
def insert (l : LL K) (iter : Nat) (xn xc gn gc : List K) : C (LL K) := do
  let q ← pick l
  let s ← dcopy l.d xn q.nd.s
  let s ← daxpy l.d (-1) xc s
  let y ← dcopy l.d gn q.nd.y
  let y ← daxpy l.d (-1) gc y
  let rho ← ddot l.d s 1 y 1
  link l q.a ⟨iter, s, y, rho, q.nd.next, q.nd.prev⟩ q.heap

/-- optimization.c:2392-2395 `c3opt_lbfgs_reset_step`. -/
def LL.reset (l : LL K) : LL K := { l with step := 0 }

/-- optimization.c:2407-2428 `c3opt_lbfgs_list_step`: the list with its cursor moved and the node under the cursor. -/
def lstep (l : LL K) : C (LL K × Node K) :=
  if l.step + 1 = 1 then do
    let n ← deref l.heap l.head
    pure (⟨l.m, l.d, l.size, l.head, 1, l.head, l.heap⟩, n)
  else do
    let c ← deref l.heap l.cstep
    let n ← deref l.heap c.next
    pure (⟨l.m, l.d, l.size, l.head, if l.step + 1 = l.size then 0 else l.step + 1, c.next, l.heap⟩, n)

/-- optimization.c:2440-2465 `c3opt_lbfgs_list_step_back`. -/
def lback (l : LL K) : C (LL K × Node K) :=
  if l.step + 1 = 1 then do
    let c ← forR 1 l.size (fun _ c => do
      let n ← deref l.heap c
      pure n.next) l.head
    let n ← deref l.heap c
    pure (⟨l.m, l.d, l.size, l.head, 1, c, l.heap⟩, n)
  else do
    let c ← deref l.heap l.cstep
    let n ← deref l.heap c.prev
    pure (⟨l.m, l.d, l.size, l.head, if l.step + 1 = l.size then 0 else l.step + 1, c.prev, l.heap⟩, n)

/-- `1.0/rhoinv`. -/
def recip (r : K) : C K := if r = 0 then .error .ub else pure (1 / r)

/-- State of the first loop of `lbfgs_hg`. -/
structure Hg (K : Type) where
  l : LL K
  alpha : List K
  q : List K
  num : K
  den : K

/-- optimization.c:2552-2555: the scaling is that of the newest pair. -/
def hgDen (dx bound ii : Nat) (n : Node K) (den : K) : C K := if ii = bound - 1 then ddot dx n.y 1 n.y 1 else pure den

/-- optimization.c:2548-2565 one pass of the first loop, `ii = bound-1-k`. -/
def hg1 (dx bound incr k : Nat) (st : Hg K) : C (Hg K) := do
  let ii := bound - 1 - k
  let r ← lstep st.l
  let den ← hgDen dx bound ii r.2 st.den
  let num := if ii = bound - 1 then r.2.rhoinv else st.num
  cassert (decide (r.2.iter = ii + incr))
  let c ← recip r.2.rhoinv
  let v ← ddot dx r.2.s 1 st.q 1
  let alpha ← wr st.alpha ii (c * v)
  let q ← daxpy dx (-(c * v)) r.2.y st.q
  pure ⟨r.1, alpha, q, num, den⟩

/-- optimization.c:2577-2582 one pass of the second loop. -/
def hg2 (dx ii : Nat) (st : Hg K) : C (Hg K) := do
  let r ← lback st.l
  let c ← recip r.2.rhoinv
  let v ← ddot dx r.2.y 1 st.q 1
  let al ← rd st.alpha ii
  let q ← daxpy dx (al - c * v) r.2.s st.q
  pure ⟨r.1, st.alpha, q, st.num, st.den⟩

/-- optimization.c:2521-2583 `lbfgs_hg`. -/
def lbfgsHg (iter m dx : Nat) (hoscale : K) (scale : Bool) (alpha g q : List K) (l : LL K) : C (Hg K) := do
  let bound := if iter ≤ m then iter else m
  let incr := if iter ≤ m then 0 else iter - m
  let q ← dcopy dx g q
  let st ← forN bound (fun k st => hg1 dx bound incr k st) ⟨l.reset, alpha, q, 0, 0⟩
  let q ← forN dx (fun zz q => do
    let v ← rd q zz
    if st.den > 1 / 10 ^ 15 ∧ scale = true then wr q zz (v * (hoscale * st.num / st.den)) else wr q zz (v * hoscale)) st.q
  forN bound (fun ii st => hg2 dx ii st) ⟨st.l.reset, st.alpha, q, st.num, st.den⟩

/-- optimization.c:2662-2677 the line search of one iteration. The gradient of the result is the buffer `workspace+2*d`. -/
def lbfgsLs (sq : K → K) (zf : Nat) (o : Obj K) (p : Par K) (cur : List K) (fold : K) (grad dir w2 x : List K) (tr : Tr K) :
    C (Ls K) :=
  match p.alg with
  | .backtrack => do
    let r ← lsBox sq o p cur fold grad dir x fold tr
    pure ⟨r.ret, r.newx, r.newf, o.g r.newx, r.info, r.tr.evg r.newx⟩
  | .strongwolfe => do
    let w2 ← dcopy p.d grad w2
    lsStrong sq zf o p cur fold w2 dir x fold tr
  | .weakwolfe => do
    let w2 ← dcopy p.d grad w2
    lsWolfe o p cur fold w2 dir x fold tr

/-- optimization.c:2662-2679: a negative code of the line search stops the program (`assert (res > -1)`). -/
def lbfgsSearch (sq : K → K) (zf : Nat) (o : Obj K) (p : Par K) (cur : List K) (fold : K) (grad dir w2 x : List K) (tr : Tr K) :
    C (Ls K) := do
  let r ← lbfgsLs sq zf o p cur fold grad dir w2 x tr
  cassert (decide (r.info > -1))
  pure r

/-- optimization.c:2722-2750 the tests for convergence. -/
def lbfgsTest (p : Par K) (onbound : Bool) (eta diff xdiff : K) : Option Ret :=
  if onbound then
    if diff < p.relftol then some .ftol
    else if xdiff < p.absxtol then some .xtol
    else none
  else if eta * eta / 2 < p.gtol ^ 2 then some .gtol
  else if diff < p.relftol then some .ftol
  else if xdiff < p.absxtol then some .xtol
  else none

/-- The loop of `c3_opt_lbfgs`, optimization.c:2657-2771. -/
def lbfgsLoop (sq : K → K) (zf : Nat) (o : Obj K) (p : Par K) (m : Nat) (scale : Bool) :
    Nat → Nat → List K → K → List K → LL K → List K → List K → List K → List K → Nat → Tr K → List Int → C (Res K)
  | 0, _, _, _, _, _, _, _, _, _, _, _, _ => .error .diverge
  | fuel + 1, iter, x, fval, grad, l, alpha, cur, dir, w2, niters, tr, infos => do
    let cur ← dcopy p.d x cur
    let r ← lbfgsSearch sq zf o p cur fval grad dir w2 x tr
    let l ← insert l iter r.newx cur r.grad grad
    let grad ← dcopy p.d r.grad grad
    let st ← lbfgsHg (iter + 1) m p.d 1 scale alpha grad dir l
    let dir ← dscal p.d (-1) st.q
    let eta ← ddot p.d grad 1 dir 1
    let onb ← onBound p.d r.newx p.lb p.ub
    let xdiff ← norm2diff sq r.newx cur p.d
    if iter + 1 > p.maxiter then pure ⟨r.newx, r.newf, grad, .maxiter, niters + 1, r.tr, r.info :: infos⟩
    else
      match lbfgsTest p onb eta (fdiff r.newf fval) xdiff with
      | some c => pure ⟨r.newx, r.newf, grad, c, niters + 1, r.tr, r.info :: infos⟩
      | none => lbfgsLoop sq zf o p m scale fuel (iter + 1) r.newx r.newf grad st.l st.alpha cur dir r.grad (niters + 1) r.tr (r.info :: infos)

/-- optimization.c:2599-2775 `c3_opt_lbfgs`; `m` is the number of stored pairs (`c3opt_set_nvectors_store`), `scale` the option
`lbfgs_scale`. -/
def optLbfgs (sq : K → K) (zf : Nat) (o : Obj K) (p : Par K) (m : Nat) (scale : Bool) (x cur dir w2 : List K) : C (Res K) := do
  let tr := (Tr.mk 0 0 []).evg x
  let dir ← dcopy p.d (o.g x) dir
  let dir ← dscal p.d (-1) dir
  lbfgsLoop sq zf o p m scale (p.maxiter + 1) 0 x (o.f x) (o.g x) (LL.alloc m p.d) (List.replicate m 0) cur dir w2 1 tr []

end C3.Opt

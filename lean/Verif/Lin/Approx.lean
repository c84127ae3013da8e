/-
Construction of linear elements (c3/lib_funcs/linelm.c): fixed-grid and adaptive approximation, product, functions with given
zeros, orthonormal basis.

Numbers are exact. A function to be approximated is a total function of one number (the wrapper's error code is ignored by the
code, too).
-/
import Verif.Lin.Model

namespace C3.Lin
variable {K : Type} [Field K] [LinearOrder K]

/-- linelm.h `struct LinElemExpAopts`. -/
structure AOpts (K : Type) where
  num : Nat
  nodes : Option (List K)
  lb : K
  ub : K
  adapt : Bool
  delta : K
  hmin : K

/-- linelm.c:1936: `fabs((fl+fr)/2 - fmid)/fabs(fmid) < delta`. With `fmid = 0` the quotient is infinite or not a number, and
the comparison is false. -/
def accept (delta fl fr fmid : K) : Bool := decide (fmid ≠ 0 ∧ |(fl + fr) / 2 - fmid| / |fmid| < delta)

/-- linelm.c:1915-1956 `lin_elem_adapt`. The linked list is a `List`; the pairs are appended in order, the second half without
its first pair (`xy_concat(xy,last->next)`). `fuel` bounds the depth, running out of it is unbounded recursion. -/
def adapt (f : K → K) (delta hmin : K) : Nat → K → K → K → K → C (List (K × K))
  | 0, _, _, _, _ => .error .diverge
  | fuel + 1, xl, fl, xr, fr =>
    if xr - xl ≤ hmin then .ok [(xl, fl), (xr, fr)]
    else if accept delta fl fr (f ((xl + xr) / 2)) then
      .ok [(xl, fl), ((xl + xr) / 2, f ((xl + xr) / 2)), (xr, fr)]
    else do
      let a ← adapt f delta hmin fuel xl fl ((xl + xr) / 2) (f ((xl + xr) / 2))
      let b ← adapt f delta hmin fuel ((xl + xr) / 2) (f ((xl + xr) / 2)) xr fr
      pure (a ++ b.drop 1)

/-- linelm.c:2012-2018 and 2048-2056: the list of pairs as an expansion, with the final assertion of 2062. -/
def ofPairs (xy : List (K × K)) : C (LE K) := do
  cassert (decide (xy.length ≠ 0))
  pure ⟨xy.length, xy.map (·.1), xy.map (·.2)⟩

/-- linelm.c:1974-2001, 2062: the fixed grid. The self-check of the first node (1993-1999) reads a node. -/
def approxFixed (f : K → K) (num : Nat) (nodes : List K) : C (LE K) := do
  if nodes.length < num then .error .oob
  else do
    let c ← forN num (fun i c => do
      let x ← rd nodes i
      wr c i (f x)) (List.replicate num 0)
    let _ ← rd (nodes.take num) 0
    pure ⟨num, nodes.take num, c⟩

/-- linelm.c:2030-2044: one step for starting node `ii`. -/
def adaptNext (f : K → K) (delta hmin : K) (fuel : Nat) (nodes : List K) (ii : Nat) (s : List (K × K) × K) :
    C (List (K × K) × K) := do
  let xr ← rd nodes ii
  let t ← adapt f delta hmin fuel s.2 (f s.2) xr (f xr)
  pure (s.1 ++ t.drop 1, xr)

/-- linelm.c:2021-2057: adaptation between given starting nodes. (`fl` is always the value at `xl`.) -/
def adaptNodes (f : K → K) (delta hmin : K) (fuel num : Nat) (nodes : List K) : C (LE K) := do
  cassert (decide (num > 1))
  let xl ← rd nodes 0
  let xr ← rd nodes 1
  let xy ← adapt f delta hmin fuel xl (f xl) xr (f xr)
  let s ← forR 2 num (adaptNext f delta hmin fuel nodes) (xy, xr)
  ofPairs s.1

/-- linelm.c:1970-2064 `lin_elem_exp_approx`. -/
def approx (fuel : Nat) (o : AOpts K) (f : K → K) : C (LE K) :=
  match o.adapt, o.nodes with
  | false, none => .error .assertFail
  | false, some x => approxFixed f o.num x
  | true, none => do
    let xy ← adapt f o.delta o.hmin fuel o.lb (f o.lb) o.ub (f o.ub)
    ofPairs xy
  | true, some x => adaptNodes f o.delta o.hmin fuel o.num x

/-- linelm.c:1558-1589 `lin_elem_exp_prod` for expansions on the same grid: fixed-grid approximation of the product of the two
evaluations at the nodes of the first. (Different grids: adaptive approximation between the inner end points, see `approx`.) -/
def prodSame (tol : K) (f g : LE K) : C (LE K) := do
  let b ← sdiscp tol f g
  cassert b
  let c ← forN f.num (fun i c => do
    let x ← rd f.nodes i
    let u ← eval tol f x
    let w ← eval tol g x
    wr c i (u * w)) (List.replicate f.num 0)
  let _ ← rd (f.nodes.take f.num) 0
  pure ⟨f.num, f.nodes.take f.num, c⟩

/-- linelm.c:2486-2494: is `x` not within the tolerance of any of the zeros? -/
def nonzero (tol : K) (zeros : List K) (x : K) : Bool := zeros.all (fun z => decide (¬ |x - z| < tol))

/-- linelm.c:2479-2502, the fixed grid of `lin_elem_exp_onezero`. -/
def onezeroFixed (tol : K) (zeros : List K) (num : Nat) (nodes : List K) : C (LE K) := do
  cassert (decide (num > zeros.length))
  if nodes.length < num then .error .oob
  else do
    let c ← forN num (fun i c => do
      let x ← rd nodes i
      if nonzero tol zeros x then wr c i 1 else pure c) (List.replicate num 0)
    pure ⟨num, nodes.take num, c⟩

/-- Insert into a sorted list. -/
def ins (x : K) : List K → List K
  | [] => [x]
  | y :: l => if x ≤ y then x :: y :: l else y :: ins x l

/-- `qsort` (the comparison function of linelm.c:2356-2367 returns 0 also for "less", which the C standard does not allow; the
result is modelled as the sorted list). -/
def sort (l : List K) : List K := l.foldr ins []

/-- linelm.c:2384-2476, the adaptive case of `lin_elem_exp_onezero`. `lin_elem_exp_init` copies its arguments. -/
def onezeroAdapt (tol : K) (zeros : List K) (lb ub : K) : C (LE K) :=
  if zeros.length = 0 then .ok ⟨2, [0, 0], [1, 0]⟩
  else do
    let s0 ← rd (sort zeros) 0
    let zl ← rd zeros (zeros.length - 1)
    match decide (|s0 - lb| < tol), decide (|zl - ub| < tol) with
    | false, false => .ok ⟨zeros.length + 2, lb :: sort zeros ++ [ub], List.replicate (zeros.length + 1) 0 ++ [1]⟩
    | true, true => do
      let s1 ← rd (sort zeros) 1
      .ok ⟨zeros.length + 1, lb :: (lb + s1) / 2 :: (sort zeros).drop 1, 0 :: 1 :: List.replicate (zeros.length - 1) 0⟩
    | true, false => .ok ⟨zeros.length + 1, lb :: (sort zeros).take (zeros.length - 1) ++ [ub], List.replicate zeros.length 0 ++ [1]⟩
    | false, true => .ok ⟨zeros.length + 1, lb :: sort zeros, 1 :: List.replicate zeros.length 0⟩

/-- linelm.c:2378-2503 `lin_elem_exp_onezero`. -/
def onezero (tol : K) (zeros : List K) (o : AOpts K) : C (LE K) :=
  match o.adapt, o.nodes with
  | true, _ => onezeroAdapt tol zeros o.lb o.ub
  | false, none => .error .assertFail
  | false, some x => onezeroFixed tol zeros o.num x

end C3.Lin

/-
Cross approximation of discrete tensors (c3/lib_tensdecomp/cross.c): the fiber cache, the construction of the fiber
matrices, and the initial index sets.

`NULL` index arrays (allowed by the code when the length is 0) are empty lists. The function argument is a pure function
of the combined index: it returns the fiber values. The trace of its calls is part of the state.
-/
import Verif.Core.Mem
import Verif.Arr.Model

namespace C3.Cross
variable {K : Type}

/-- `struct cross_fiber_list` node (c3/lib_tensdecomp/cross.h); the lengths are those of the lists. -/
structure Node (K : Type) where
  pre : List Nat
  post : List Nat
  vals : List K
  deriving DecidableEq

/-- `memmove` of the first `n` elements of `src` into a new array. -/
def take {α : Type} (n : Nat) (src : List α) : C (List α) := if n ≤ src.length then .ok (src.take n) else .error .oob

/-- The same, skipped (result `NULL` or untouched) when there is nothing to copy. -/
def takeOpt {α : Type} (n : Nat) (src : List α) : C (List α) := if n = 0 then .ok [] else take n src

/-- c3/lib_tensdecomp/cross.c:70-101 `AddCrossFiber`: copies pushed at the front. -/
def addFiber (head : List (Node K)) (preLen postLen : Nat) (pre post : List Nat) (vals : List K) (nVals : Nat) :
    C (List (Node K)) := do
  let p ← takeOpt preLen pre
  let q ← takeOpt postLen post
  let v ← take nVals vals
  pure (⟨p, q, v⟩ :: head)

/-- The comparison loop (cross.c:134-140 and 142-149): element by element, stops at the first difference. -/
def agree : List Nat → List Nat → Nat → C Bool
  | [], _, _ => .ok true
  | x :: xs, key, jj => do
    let y ← rd key jj
    if x ≠ y then .ok false else agree xs key (jj + 1)

/-- c3/lib_tensdecomp/cross.c:118-159 `CrossIndexExists`; `none` is `-1`. The position is an `int` in the code (taken
as exact). -/
def indexExists : List (Node K) → List Nat → List Nat → Nat → C (Option Nat)
  | [], _, _, _ => .ok none
  | nd :: rest, pre, post, it => do
    let a ← agree nd.pre pre 0
    if a then do
      let b ← agree nd.post post 0
      if b then .ok (some it) else indexExists rest pre post (it + 1)
    else indexExists rest pre post (it + 1)

/-- c3/lib_tensdecomp/cross.c:172-180 `getCrossFiberListIndex`. -/
def getFiber : List (Node K) → Nat → C (List K)
  | [], _ => .error .null
  | nd :: _, 0 => .ok nd.vals
  | _ :: rest, n + 1 => getFiber rest n

/-- c3/lib_tensdecomp/cross.c:434-441 `combine_ind_with_space`: the position of the free coordinate holds 0. -/
def combine (nn : Nat) (n : List Nat) (mm : Nat) (m : List Nat) : C (List Nat) := do
  let p ← takeOpt nn n
  let q ← takeOpt mm m
  pure (p ++ 0 :: q)

/-- c3/lib_tensdecomp/cross.c:443-460 `build_fiber_mat`; `r`, `n`, `r'` are `ranks[core]`, `nvals[core]`, `ranks[core+1]`. -/
def buildFiberMat (r n r' ii kk : Nat) (fiber : List K) (Ak : List K) (lr : Bool) : C (List K) :=
  if lr then forN n (fun jj Ak => do
      let v ← rd fiber jj
      wr Ak (kk + jj * r + ii * r * n) v) Ak
  else forN n (fun jj Ak => do
      let v ← rd fiber jj
      wr Ak (ii + jj * r' + kk * r' * n) v) Ak

/-- State of the cache of one core: the list and the indices the function was called with (latest first). -/
structure Cache (K : Type) where
  head : List (Node K)
  calls : List (List Nat)

/-- The part of `struct tt_cross_opts` that `cross_setup` reads for one core. -/
structure Req where
  r : Nat
  n : Nat
  r' : Nat
  dl : Nat
  left : List (List Nat)
  dr : Nat
  right : List (List Nat)
  lr : Bool
  deriving DecidableEq

/-- The branch of `cross_setup` taken when the fiber is not stored (lines 482-502). -/
def miss (A : List Nat → List K) (q : Req) (ii kk : Nat) (l rt : List Nat) (st : List K × Cache K) : C (List K × Cache K) := do
  let ci ← combine q.dl l q.dr rt
  let head ← addFiber st.2.head q.dl q.dr l rt (A ci) q.n
  let Ak ← buildFiberMat q.r q.n q.r' ii kk (A ci) st.1 q.lr
  pure (Ak, ⟨head, ci :: st.2.calls⟩)

/-- The other branch (lines 503-507). -/
def hit (q : Req) (ii kk idx : Nat) (st : List K × Cache K) : C (List K × Cache K) := do
  let fiber ← getFiber st.2.head idx
  let Ak ← buildFiberMat q.r q.n q.r' ii kk fiber st.1 q.lr
  pure (Ak, st.2)

/-- Body of the double loop of `cross_setup`. -/
def setupStep (A : List Nat → List K) (q : Req) (ii kk : Nat) (st : List K × Cache K) : C (List K × Cache K) := do
  let l ← rd q.left kk
  let rt ← rd q.right ii
  let o ← indexExists st.2.head l rt 0
  match o with
  | none => miss A q ii kk l rt st
  | some idx => hit q ii kk idx st

/-- c3/lib_tensdecomp/cross.c:461-509 `cross_setup`. `A` is the function restricted to the free coordinate of this core:
it maps the combined index to the `nvals[core]` values of the fiber. -/
def setup [Zero K] (A : List Nat → List K) (q : Req) (c : Cache K) : C (List K × Cache K) :=
  forN q.r' (fun ii => forN q.r (fun kk => setupStep A q ii kk)) (List.replicate (q.r * q.n * q.r') 0, c)

/-- A history of requests for the same core (index sets, ranks and sweep direction may change in between). -/
def history [Zero K] (A : List Nat → List K) : List Req → Cache K → C (List (List K) × Cache K)
  | [], c => .ok ([], c)
  | q :: qs, c => do
    let p ← setup A q c
    let t ← history A qs p.2
    pure (p.1 :: t.1, t.2)

/-- c3/lib_tensdecomp/cross.c:315-328 `create_naive_index_set` on an index set of dimension `dim` (`indices[ii]` is `NULL`
when it is 0); state: dimension in use, indices. -/
def naiveStep (dim : Nat) (nvals : List Nat) (ii : Nat) (st : Nat × List (List Nat)) : C (Nat × List (List Nat)) := do
  let n ← rd nvals st.1
  let onDim := if n < ii + 1 then st.1 + 1 else st.1
  if dim = 0 then pure (onDim, st.2)
  else do
    let ix ← rd st.2 ii
    let ix ← wr ix onDim ii
    let s ← wr st.2 ii ix
    pure (onDim, s)

def naive (dim N : Nat) (nvals : List Nat) : C (List (List Nat)) := do
  let st ← forN N (naiveStep dim nvals) (0, List.replicate N (List.replicate dim 0))
  pure st.2

/-- c3/lib_tensdecomp/cross.c:330-340 `init_cross_opts_with_naive_set` for core `ii < dim-1`: the sets right and left of
it (`right[ii]` has dimension `dim-ii-1` and `ranks[ii+1]` entries, `left[ii]` dimension `ii` and `ranks[ii]` entries). -/
def naiveSets (dim : Nat) (ranks nvals : List Nat) (ii : Nat) : C (List (List Nat) × List (List Nat)) := do
  let nr ← rd ranks (ii + 1)
  let right ← naive (dim - ii - 1) nr (nvals.drop ii)
  let nl ← rd ranks ii
  let left ← naive ii nl nvals
  pure (right, left)

/-- c3/lib_tensdecomp/cross.c:685-693 (end of `process_cores_lr`): the left index set of core `kk+1` from the selected rows
of the `(ranks[kk] nvals[kk]) x ranks[kk+1]` matrix. `rnd` is the rounding inside `big_to_multi`; `next` is the set being
overwritten. -/
def updateLeft (rnd : ℚ → ℚ) (kk r n : Nat) (left : List (List Nat)) (rows : List Nat) (r' : Nat) (next : List (List Nat)) :
    C (List (List Nat)) :=
  forN r' (fun jj next => do
    let row ← rd rows jj
    let m ← Arr.bigToMulti rnd row 2 [r, n] [0, 0]
    let a ← rd m 0
    let b ← rd m 1
    let ix ← rd next jj
    let src ← rd left a
    let p ← take kk src
    let ix ← if kk ≤ ix.length then .ok (p ++ ix.drop kk) else .error .oob
    let ix ← wr ix kk b
    wr next jj ix) next

/-- c3/lib_tensdecomp/cross.c:640-650 (end of `process_cores_rl`): the right index set of core `kk-1` from the selected rows
of the `(ranks[kk+1] nvals[kk]) x ranks[kk]` matrix. The row number is split with `ranks[kk]` (line 640), passed here as
`r`; `dr` is the dimension of the right set of core `kk`. -/
def updateRight (rnd : ℚ → ℚ) (r n dr : Nat) (right : List (List Nat)) (rows : List Nat) (N : Nat) (next : List (List Nat)) :
    C (List (List Nat)) :=
  forN N (fun jj next => do
    let row ← rd rows jj
    let m ← Arr.bigToMulti rnd row 2 [r, n] [0, 0]
    let a ← rd m 0
    let b ← rd m 1
    let ix ← rd next jj
    let src ← rd right a
    let p ← take dr src
    let ix ← if dr + 1 ≤ ix.length then .ok (ix.take 1 ++ p ++ ix.drop (dr + 1)) else .error .oob
    let ix ← wr ix 0 b
    wr next jj ix) next

end C3.Cross

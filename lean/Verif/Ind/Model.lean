/-
Cross-approximation index sets (lib_clinalg/indmanage.c).

Simplifications: elements are of one type `α` (the C code stores raw bytes together with the element size;
`cross_node_add_nested` passes `sizeof(double)` instead of the element size on line 147, which is the same for
the 8-byte element types the library uses). `malloc` always succeeds.
-/
import Verif.Core.Mem

namespace C3.Ind

variable {α : Type}

/-- indmanage.c:84-90 `struct CrossNode`; the pointer to a node is the node itself, NULL is `null`. -/
inductive CNode (α : Type) where
  | null
  | node (n : Nat) (x : List α) (next : CNode α)
  deriving DecidableEq

/-- indmanage.h `struct CrossIndex`. -/
structure CIndex (α : Type) where
  d : Nat
  n : Nat
  nodes : CNode α
  deriving DecidableEq

/-- `memmove(dst+off, src, n*size)` between two allocations. -/
def blit (dst : List α) (off : Nat) (src : List α) (n : Nat) : C (List α) :=
  if off + n ≤ dst.length ∧ n ≤ src.length then
    .ok (dst.take off ++ src.take n ++ dst.drop (off + n))
  else .error .oob

/-- indmanage.c:116-130 `cross_node_add`. -/
def nodeAdd : CNode α → Nat → List α → C (CNode α)
  | .null, n, x => if n ≤ x.length then .ok (.node n (x.take n) .null) else .error .oob
  | .node m y next, n, x => do
    let next ← nodeAdd next n x
    pure (.node m y next)

/-- indmanage.c:132-149 `cross_node_add_nested`: the uninitialised buffer is filled completely by the two copies. -/
def nodeAddNested (cn : CNode α) (left : Int) (nold : Nat) (xold : List α) (nnew : Nat) (xnew : List α) :
    C (CNode α) :=
  if nold ≤ xold.length ∧ nnew ≤ xnew.length then
    if left = 0 then nodeAdd cn (nold + nnew) (xold.take nold ++ xnew.take nnew)
    else nodeAdd cn (nold + nnew) (xnew.take nnew ++ xold.take nold)
  else .error .oob

/-- indmanage.c:151-160 `cross_node_get`. -/
def nodeGet : CNode α → Nat → C (CNode α)
  | cn, 0 => .ok cn
  | .null, _ + 1 => .error .null
  | .node _ _ next, k + 1 => nodeGet next k

/-- indmanage.c:179-191 `cross_index_alloc`. -/
def indexAlloc (dind : Nat) : CIndex α := ⟨dind, 0, .null⟩

/-- indmanage.c:201-206 `cross_index_add_index`. -/
def addIndex (cn : CIndex α) (d : Nat) (x : List α) : C (CIndex α) := do
  cassert (d = cn.d)
  let nodes ← nodeAdd cn.nodes d x
  pure ⟨cn.d, cn.n + 1, nodes⟩

/-- indmanage.c:208-214 `cross_index_add_nested`. -/
def addNested (cn : CIndex α) (left : Int) (dold : Nat) (xold : List α) (dnew : Nat) (xnew : List α) :
    C (CIndex α) := do
  cassert (dold + dnew = cn.d)
  let nodes ← nodeAddNested cn.nodes left dold xold dnew xnew
  pure ⟨cn.d, cn.n + 1, nodes⟩

/-- indmanage.c:216-220 `cross_index_get_node`. -/
def getNode (c : CIndex α) (ind : Nat) : C (CNode α) := do
  cassert (ind < c.n)
  nodeGet c.nodes ind

/-- Dereference of a node pointer: the fields `n`, `x`, `next`. -/
def deref : CNode α → C (Nat × List α × CNode α)
  | .null => .error .null
  | .node n x next => .ok (n, x, next)

/-- indmanage.c:223-237 `cross_index_copy`. -/
def indexCopy : Option (CIndex α) → C (Option (CIndex α))
  | none => .ok none
  | some ci => do
    let out ← forN ci.n (fun ii (new : CIndex α) => do
      let nd ← getNode ci ii
      let (n, x, _) ← deref nd
      addIndex new n x) (indexAlloc ci.d)
    pure (some out)

/-- indmanage.c:239-253 `cross_index_get_node_value`: the value and `*n`; NULL set gives NULL and leaves `*n`. -/
def getNodeValue (c : Option (CIndex α)) (ind : Nat) : C (Option (List α × Nat)) :=
  match c with
  | none => .ok none
  | some c => do
    cassert (ind < c.n)
    match ← nodeGet c.nodes ind with
    | .null => pure none
    | .node n x _ => pure (some (x, n))

/-- The loop body shared by all branches of `cross_index_create_nested`:
`cross_index_add_nested(ci,left,oc->n,oc->x,1,newopts + jj*size,size)`. -/
def nestStep (ci : CIndex α) (left : Int) (oc : CNode α) (opts : List α) (jj : Nat) : C (CIndex α) := do
  let (n, x, _) ← deref oc
  addNested ci left n x 1 (opts.drop jj)

/-- indmanage.c:263-277, method 1: loop state is the set, the old node pointer and whether `return` was taken. -/
def nestedOldMajor (ci : CIndex α) (left : Int) (sizenew nopts : Nat) (newopts : List α) (old : CIndex α) :
    C (CIndex α) := do
  let (ci, _, _) ← forN old.n (fun _ (st : CIndex α × CNode α × Bool) =>
    if st.2.2 then .ok st else do
      let st ← forN nopts (fun jj (st : CIndex α × CNode α × Bool) =>
        if st.2.2 then .ok st else do
          let ci ← nestStep st.1 left st.2.1 newopts jj
          pure (ci, st.2.1, decide (ci.n = sizenew))) st
      if st.2.2 then .ok st else do
        let (_, _, next) ← deref st.2.1
        pure (st.1, next, false)) (ci, old.nodes, false)
  pure ci

/-- indmanage.c:278-291, method 0. -/
def nestedOptMajor (ci : CIndex α) (left : Int) (sizenew nopts : Nat) (newopts : List α) (old : CIndex α) :
    C (CIndex α) := do
  let (ci, _) ← forN nopts (fun jj (st : CIndex α × Bool) =>
    if st.2 then .ok st else do
      let (ci, _, r) ← forN old.n (fun _ (st : CIndex α × CNode α × Bool) =>
        if st.2.2 then .ok st else do
          let ci ← nestStep st.1 left st.2.1 newopts jj
          if ci.n = sizenew then pure (ci, st.2.1, true) else do
            let (_, _, next) ← deref st.2.1
            pure (ci, next, false)) (st.1, old.nodes, false)
      pure (ci, r)) (ci, false)
  pure ci

/-- One pass over options `a ≤ jj < b` advancing the old node pointer, indmanage.c:296-301 and 311-316. -/
def nestedZip (ci : CIndex α) (left : Int) (cnt : Nat) (newopts : List α) (old : CIndex α) : C (CIndex α) := do
  let (ci, _) ← forN cnt (fun jj (st : CIndex α × CNode α) => do
    let ci ← nestStep st.1 left st.2 newopts jj
    let (_, _, next) ← deref st.2
    pure (ci, next)) (ci, old.nodes)
  pure ci

/-- indmanage.c:255-327 `cross_index_create_nested`; `none` is NULL. -/
def createNested (method left : Int) (sizenew nopts : Nat) (newopts : List α) (old : CIndex α) :
    C (Option (CIndex α)) := do
  cassert (old.n * nopts ≥ sizenew)
  let ci : CIndex α := indexAlloc (old.d + 1)
  if method = 1 then do
    let r ← nestedOldMajor ci left sizenew nopts newopts old
    pure (some r)
  else if method = 0 then do
    let r ← nestedOptMajor ci left sizenew nopts newopts old
    pure (some r)
  else if method = 2 then do
    cassert (sizenew ≤ nopts)
    if old.n < sizenew then do
      let ci ← nestedZip ci left old.n newopts old
      let r ← forR old.n sizenew (fun jj ci => nestStep ci left old.nodes newopts jj) ci
      pure (some r)
    else do
      let r ← nestedZip ci left sizenew newopts old
      pure (some r)
  else pure none

/-- indmanage.c:329-344 `cross_index_create_nested_ind`. -/
def createNestedInd (left : Int) (sizenew : Nat) (indold : List Nat) (newx : List α) (old : CIndex α) :
    C (CIndex α) :=
  forN sizenew (fun ii ci => do
    let i ← rd indold ii
    let cn ← getNode old i
    let (n, x, _) ← deref cn
    addNested ci left n x 1 (newx.drop ii)) (indexAlloc (old.d + 1))

/-- indmanage.c:346-409 `cross_index_merge_wspace`: array of rows, uninitialised entries are `none`. -/
def mergeWspace [Zero α] (left right : Option (CIndex α)) : C (List (Option (List α))) :=
  match left, right with
  | some l, some r => do
    let d := l.d + r.d + 1
    let (vals, _) ← forN r.n (fun ii (st : List (Option (List α)) × CNode α) => do
      let (vals, _) ← forN l.n (fun jj (st2 : List (Option (List α)) × CNode α) => do
        let onind := ii * l.n + jj
        let v : List α := List.replicate d 0
        let (_, xl, nl) ← deref st2.2
        let v ← blit v 0 xl l.d
        let (_, xr, _) ← deref st.2
        let v ← blit v (l.d + 1) xr r.d
        let vals ← wr st2.1 onind (some v)
        pure (vals, nl)) (st.1, l.nodes)
      let (_, _, nr) ← deref st.2
      pure (vals, nr)) (List.replicate (r.n * l.n) none, r.nodes)
    pure vals
  | none, some r => do
    let d := r.d + 1
    let (vals, _) ← forN r.n (fun ii (st : List (Option (List α)) × CNode α) => do
      let (_, x, next) ← deref st.2
      let v ← blit (List.replicate d 0) 1 x (d - 1)
      let vals ← wr st.1 ii (some v)
      pure (vals, next)) (List.replicate r.n none, r.nodes)
    pure vals
  | some l, none => do
    let d := l.d + 1
    let (vals, _) ← forN l.n (fun ii (st : List (Option (List α)) × CNode α) => do
      let (_, x, next) ← deref st.2
      let v ← blit (List.replicate d 0) 0 x (d - 1)
      let vals ← wr st.1 ii (some v)
      pure (vals, next)) (List.replicate l.n none, l.nodes)
    pure vals
  | none, none => .error .assertFail

/-- indmanage.c:411-450 `cross_index_merge`: note `cl = left->nodes` inside the loop (line 442). -/
def merge [Zero α] (left right : Option (CIndex α)) : C (List (Option (List α))) :=
  match left, right with
  | some l, some r => do
    cassert (l.n = r.n)
    let d := l.d + r.d
    let (vals, _) ← forN r.n (fun ii (st : List (Option (List α)) × CNode α) => do
      let (_, xl, _) ← deref l.nodes
      let v ← blit (List.replicate d 0) 0 xl l.d
      let (_, xr, nr) ← deref st.2
      let v ← blit v l.d xr r.d
      let vals ← wr st.1 ii (some v)
      pure (vals, nr)) (List.replicate r.n none, r.nodes)
    pure vals
  | _, _ => .error .assertFail

/-- The loop adding the first-level nodes, indmanage.c:468-470 and 488-490. -/
def addAll (n : Nat) (vals : List α) : C (CIndex α) :=
  forN n (fun jj ci => addIndex ci 1 (vals.drop jj)) (indexAlloc 1)

/-- Passing `ci[k]` to `cross_index_create_nested`, which dereferences it. -/
def derefIndex : Option (CIndex α) → C (CIndex α)
  | none => .error .null
  | some c => .ok c

/-- indmanage.c:452-503 `cross_index_array_initialize`; `ci` is the caller's array of length ≥ `dim`. -/
def arrayInitialize (dim : Nat) (ci : List (Option (CIndex α))) (allnull reverse : Int)
    (sizes : List Nat) (vals : List (List α)) : C (List (Option (CIndex α))) :=
  if allnull = 1 then forN dim (fun ii ci => wr ci ii none) ci
  else if reverse = 1 then do
    cassert (dim > 1)
    let ci ← wr ci (dim - 1) none
    let s ← rd sizes (dim - 1)
    let v ← rd vals (dim - 1)
    let c ← addAll s v
    let ci ← wr ci (dim - 2) (some c)
    forN (dim - 2) (fun ii ci => do
      let ind := dim - 2 - (ii + 1)
      let s ← rd sizes (ind + 1)
      let v ← rd vals (ind + 1)
      let o ← rd ci (ind + 1)
      let o ← derefIndex o
      let c ← createNested 2 1 s s v o
      wr ci ind c) ci
  else do
    let ci ← wr ci 0 none
    let s ← rd sizes 0
    let v ← rd vals 0
    let c ← addAll s v
    let ci ← wr ci 1 (some c)
    forR 2 dim (fun ii ci => do
      let s ← rd sizes (ii - 1)
      let v ← rd vals (ii - 1)
      let o ← rd ci (ii - 1)
      let o ← derefIndex o
      let c ← createNested 2 0 s s v o
      wr ci ii c) ci

/-- indmanage.c:508-518 `cross_index_copylast` (`n = 0` underflows `ci->n-1`). -/
def copylast (ci : Option (CIndex α)) (ntimes : Nat) : C (Option (CIndex α)) :=
  match ci with
  | none => .ok none
  | some ci => do
    let last ← if ci.n = 0 then .error .assertFail else getNode ci (ci.n - 1)
    let (n, x, _) ← deref last
    let r ← forN ntimes (fun _ ci => addIndex ci n x) ci
    pure (some r)

end C3.Ind

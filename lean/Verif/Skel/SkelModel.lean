/-
Skeleton decompositions (c3/lib_linalg/linalg.c `skeleton`, `skeleton_func`, `skeleton_func2`, `sk_decomp_to_full` and the list of
stored fibers), over the reals.

`qr m n M` is LAPACK's `dgeqrf` followed by `dorgqr` (in the first two functions with a work array of `n*n` numbers, in the third through
linalg.c:172-215 `qr` for one of the two factorizations; the codes are only printed). `mv` is `maxvol_rhs` (Skel/Model.lean). The three
functions contain the same loop; they differ in the way rows and columns are fetched, which is an argument of the loop here.
-/
import Verif.Skel.Model
import Verif.Core.Blas
import Verif.Tt.SvdModel
import Verif.Opt.Model
import Verif.Mv.Model

namespace C3.Sk
open C3.Tt (blit)

/-- Fetch the columns or rows with the given numbers into an array; the state is the list of stored fibers. -/
structure Ops (σ : Type) where
  cols : σ → List Nat → List ℝ → C (List ℝ × σ)
  rows : σ → List Nat → List ℝ → C (List ℝ × σ)

/-- linalg.c:1299-1303, 1348-1352 (`skeleton`), 1159-1163, 1211-1216 (`skeleton_func`): `elt i j` is entry `(i, j)`. -/
def gatherCols (elt : Nat → Nat → C ℝ) (n r : Nat) (cols : List Nat) (R : List ℝ) : C (List ℝ) :=
  forN r (fun ii => forN n (fun jj R => do
    let c ← rd cols ii
    let v ← elt jj c
    wr R (ii * n + jj) v)) R

/-- linalg.c:1322-1326 (`skeleton`), 1184-1190 (`skeleton_func`). -/
def gatherRows (elt : Nat → Nat → C ℝ) (m r : Nat) (rows : List Nat) (Cm : List ℝ) : C (List ℝ) :=
  forN r (fun ii => forN m (fun jj Cm => do
    let p ← rd rows ii
    let v ← elt p jj
    wr Cm (ii * m + jj) v)) Cm

/-- Fetching entry by entry. `e0` is used for columns, `e1` for rows (the direction argument of the callback of `skeleton_func`). -/
def elemOps (e0 e1 : Nat → Nat → C ℝ) (n m r : Nat) : Ops Unit where
  cols _ idx R := do
    let R ← gatherCols e0 n r idx R
    .ok (R, ())
  rows _ idx Cm := do
    let Cm ← gatherRows e1 m r idx Cm
    .ok (Cm, ())

/-- Variables of the loop. -/
structure LS (σ : Type) where
  R : List ℝ
  Cm : List ℝ
  rows : List Nat
  cols : List Nat
  ta : List ℝ
  tb : List ℝ
  Aold : List ℝ
  st : σ

/-- `cblas_dgemm(CblasColMajor,CblasNoTrans,CblasTrans,m,n,k,1.0,A,m,B,n,0.0,C,m)`. -/
def dgemmNT (m n k : Nat) (A B : List ℝ) (Cm : List ℝ) : C (List ℝ) :=
  forN n (fun j c => forN m (fun i c => do
    let s ← forN k (fun t s => do
      let a ← rd A (t * m + i)
      let b ← rd B (t * n + j)
      pure (s + a * b)) 0
    wr c (j * m + i) s) c) Cm

section Loop
variable {σ : Type} (qr : Nat → Nat → List ℝ → List ℝ) (mv : List ℝ → Nat → Nat → List Nat → List ℝ → C (Int × List Nat × List ℝ))
  (ops : Ops σ)

/-- linalg.c:1308-1353 (`skeleton`), 1168-1217 (`skeleton_func`), 984-1041 (`skeleton_func2`): one pass of the loop up to `Anew`. The first
component is false if `maxvol_rhs` reported an error; its code for the columns is overwritten unread. -/
def skIter (n m r : Nat) (s : LS σ) : C (Bool × List ℝ × LS σ) := do
  let R := qr n r s.R
  let p ← mv R n r s.rows s.ta
  if p.1 ≠ 0 then .ok (false, [], { s with R := R, rows := p.2.1, ta := p.2.2 }) else do
  let g ← ops.rows s.st p.2.1 s.Cm
  let Cq := qr m r g.1
  let q ← mv Cq m r s.cols s.tb
  let p' ← mv R n r p.2.1 p.2.2
  if p'.1 ≠ 0 then .ok (false, [], { s with R := R, Cm := Cq, rows := p'.2.1, cols := q.2.1, ta := p'.2.2, tb := q.2.2, st := g.2 }) else do
  let tm ← dgemmNN m r r Cq m q.2.2 r (List.replicate (m * r) 0) m
  let h ← ops.cols g.2 q.2.1 R
  let An ← dgemmNT n m r h.1 tm (List.replicate (n * m) 0)
  .ok (true, An, ⟨h.1, Cq, p'.2.1, q.2.1, p'.2.2, q.2.2, s.Aold, h.2⟩)

/-- `dfro/fro < delta` in floating point: a quotient with denominator zero is infinite or not a number, and not below `delta`. -/
noncomputable def quotLt (dfro fro delta : ℝ) : Bool := decide (fro ≠ 0 ∧ dfro / fro < delta)

/-- linalg.c:1357-1362 (`skeleton`), 1221-1226, 1045-1050: the new value of `converged`. -/
noncomputable def conv (delta : ℝ) (n m iter : Nat) (An : List ℝ) (dfro : ℝ) : C Int :=
  if iter = 0 then .ok 0 else do
  let fro ← Tt.norm2 An (n * m)
  .ok (if n < iter then 2 else if quotLt dfro fro delta then 1 else 0)

/-- linalg.c:1305-1364 (`skeleton`), 1165-1228 (`skeleton_func`), 980-1052 (`skeleton_func2`): the loop. -/
noncomputable def skLoop (delta : ℝ) (n m r : Nat) : Nat → Nat → LS σ → C (Int × LS σ)
  | 0, _, _ => .error .diverge
  | fuel + 1, iter, s => do
    let t ← skIter qr mv ops n m r s
    if t.1 = false then .ok (-1, t.2.2) else do
    let dfro ← Opt.norm2diff Real.sqrt t.2.1 s.Aold (n * m)
    let c ← conv delta n m iter t.2.1 dfro
    if c ≠ 0 then .ok (c, { t.2.2 with Aold := t.2.1 }) else
    skLoop delta n m r fuel (iter + 1) { t.2.2 with Aold := t.2.1 }

/-- The arrays at the start, the columns, and the loop; it is left at the latest in pass `n + 1`. -/
noncomputable def skRun (delta : ℝ) (n m r : Nat) (rows cols : List Nat) (st : σ) : C (Int × LS σ) := do
  let h ← ops.cols st cols (List.replicate (n * r) 0)
  skLoop qr mv ops delta n m r (n + 2) 0
    ⟨h.1, List.replicate (m * r) 0, rows, cols, List.replicate (r * r) 0, List.replicate (r * r) 0, List.replicate (n * m) 0, h.2⟩

end Loop

section Funs
variable (qr : Nat → Nat → List ℝ → List ℝ) (mv : List ℝ → Nat → Nat → List Nat → List ℝ → C (Int × List Nat × List ℝ))

/-- linalg.c:1265-1378 `skeleton` of a row-major `n × m` matrix: code, rows, columns. -/
noncomputable def skeleton (A : List ℝ) (n m r : Nat) (rows cols : List Nat) (delta : ℝ) : C (Int × List Nat × List Nat) := do
  let e := fun i j => rd A (i * m + j)
  let t ← skRun qr mv (elemOps e e n m r) delta n m r rows cols ()
  .ok (t.1, t.2.rows, t.2.cols)

/-- linalg.c:1122-1240 `skeleton_func` of a function `a i j dir`. -/
noncomputable def skeletonFunc (a : Nat → Nat → Nat → ℝ) (n m r : Nat) (rows cols : List Nat) (delta : ℝ) :
    C (Int × List Nat × List Nat) := do
  let t ← skRun qr mv (elemOps (fun i j => .ok (a i j 0)) (fun i j => .ok (a i j 1)) n m r) delta n m r rows cols ()
  .ok (t.1, t.2.rows, t.2.cols)

/-- A list of fibers with their numbers; linalg.c:701-714 `AddFiber` puts a copy in front. -/
abbrev Cache := List (Nat × List ℝ)

/-- linalg.c:728-743 `IndexExists`: `none` stands for -1. -/
def indexExists : Cache → Nat → Option Nat
  | [], _ => none
  | e :: l, c => if e.1 = c then some 0 else (indexExists l c).map (· + 1)

/-- linalg.c:756-763 `getIndex`. -/
def getIndex (l : Cache) (k : Nat) : C (List ℝ) :=
  match l[k]? with
  | none => .error .null
  | some e => .ok e.2

/-- The fiber with number `c`: from the list, or computed and added to it. `fib c` are the values the callback writes. -/
def fetch (fib : Nat → List ℝ) (l : Cache) (c : Nat) : C (List ℝ × Cache) :=
  match indexExists l c with
  | none => .ok (fib c, (c, fib c) :: l)
  | some k => do
    let v ← getIndex l k
    .ok (v, l)

/-- linalg.c:965-977, 1028-1039 (columns), 996-1009 (rows). -/
def gatherF (fib : Nat → List ℝ) (n r : Nat) (idx : List Nat) (l : Cache) (R : List ℝ) : C (List ℝ × Cache) :=
  forN r (fun ii s => do
    let c ← rd idx ii
    let v ← fetch fib s.2 c
    let R ← blit n s.1 (ii * n) v.1 0
    .ok (R, v.2)) (R, l)

/-- Stored columns and rows. -/
structure Fibers where
  colVals : Cache
  rowVals : Cache

/-- Fetching through the lists. -/
def fibOps (fc fr : Nat → List ℝ) (n m r : Nat) : Ops Fibers where
  cols st idx R := do
    let t ← gatherF fc n r idx st.colVals R
    .ok (t.1, { st with colVals := t.2 })
  rows st idx Cm := do
    let t ← gatherF fr m r idx st.rowVals Cm
    .ok (t.1, { st with rowVals := t.2 })

/-- A stored fiber: linalg.c `getIndex(head, (size_t) IndexExists(head, i))`; a missing one gives position `(size_t) -1`, past the end. -/
def stored (l : Cache) (i : Nat) : C (List ℝ) :=
  match indexExists l i with
  | none => .error .null
  | some k => getIndex l k

/-- Skeleton decomposition (linalg.h `struct sk_decomp`). -/
structure Skd where
  n : Nat
  m : Nat
  rank : Nat
  rows : List Nat
  cols : List Nat
  fib : Fibers
  crossInv : List ℝ
  crossRank : Nat

/-- linalg.c:1058-1069: the submatrix of the kept rows and columns, stored by columns. -/
def across (r : Nat) (l : Cache) (rows cols : List Nat) : C (List ℝ) :=
  forN r (fun ii a => do
    let c ← rd cols ii
    let t ← stored l c
    forN r (fun jj a => do
      let p ← rd rows jj
      let v ← rd t p
      wr a (ii * r + jj) v) a) (List.replicate (r * r) 0)

/-- linalg.c:1074-1079: transposition. -/
def toRowMajor (r : Nat) (ainv : List ℝ) (out : List ℝ) : C (List ℝ) :=
  forN r (fun ii => forN r (fun jj o => do
    let v ← rd ainv (jj * r + ii)
    wr o (ii * r + jj) v)) out

/-- linalg.c:926-1095 `skeleton_func2`; `fc c` and `fr p` are the values of column `c` and row `p`, `cutoff` is 1e-15. -/
noncomputable def skeletonFunc2 (svd : Nat → Nat → List ℝ → C Round.Svd) (cutoff : ℝ) (fc fr : Nat → List ℝ) (d : Skd) (delta : ℝ) :
    C (Int × Skd) := do
  let t ← skRun qr mv (fibOps fc fr d.n d.m d.rank) delta d.n d.m d.rank d.rows d.cols d.fib
  let ac ← across d.rank t.2.st.colVals t.2.rows t.2.cols
  let iv ← Mv.pinv svd cutoff d.rank ac
  let ci ← toRowMajor d.rank iv.1 d.crossInv
  .ok (t.1, { d with rows := t.2.rows, cols := t.2.cols, fib := t.2.st, crossInv := ci, crossRank := iv.2 })

/-- linalg.c:855-867: the kept rows (row-major) and columns (row-major) next to each other. -/
def skParts (d : Skd) : C (List ℝ × List ℝ) :=
  forN d.rank (fun ii s => do
    let p ← rd d.rows ii
    let t1 ← stored d.fib.rowVals p
    let R ← blit d.m s.1 (ii * d.m) t1 0
    let c ← rd d.cols ii
    let t2 ← stored d.fib.colVals c
    let Cm ← forN d.n (fun jj Cm => do
      let v ← rd t2 jj
      wr Cm (jj * d.rank + ii) v) s.2
    .ok (R, Cm)) (List.replicate (d.rank * d.m) 0, List.replicate (d.n * d.rank) 0)

/-- `cblas_dgemm(CblasRowMajor,CblasNoTrans,CblasNoTrans,m,n,k,1.0,A,k,B,n,0.0,C,n)`. -/
def dgemmRow (m n k : Nat) (A B : List ℝ) (Cm : List ℝ) : C (List ℝ) :=
  forN m (fun i c => forN n (fun j c => do
    let s ← forN k (fun t s => do
      let a ← rd A (i * k + t)
      let b ← rd B (t * n + j)
      pure (s + a * b)) 0
    wr c (i * n + j) s) c) Cm

/-- linalg.c:845-877 `sk_decomp_to_full`: the full matrix, row-major. -/
def toFull (d : Skd) : C (List ℝ) := do
  let s ← skParts d
  let temp ← dgemmRow d.n d.rank d.rank s.2 d.crossInv (List.replicate (d.n * d.rank) 0)
  dgemmRow d.n d.m d.rank temp s.1 (List.replicate (d.n * d.m) 0)

end Funs
end C3.Sk

/-
Rows of a submatrix of large volume (c3/lib_linalg/linalg.c `maxvol_rhs`), on column-major buffers over an ordered field.

LAPACK enters through two arguments: `lu r M` is `dgetrf` on the `r × r` matrix `M` (its code and the pivots, counted from 1), `inv r M` is
`dgetrf` followed by `dgetri` (codes ignored, as in the code). Work arrays that are overwritten completely before they are read are fresh
ones in the model.
-/
import Verif.Core.Sum
import Mathlib.Algebra.Order.Field.Basic

namespace C3.Sk
variable {K : Type} [Field K] [LinearOrder K]

/-- linalg.c:56-70 `maxabselem`: value and position. -/
def maxabs (a : List K) (N : Nat) : C (K × Nat) := do
  let a0 ← rd a 0
  forR 1 N (fun ii s => do
    let v ← rd a ii
    .ok (if |v| > s.1 then (|v|, ii) else s)) (|a0|, 0)

/-- Exchange of two entries. -/
def swapAt {α : Type} (a : List α) (i j : Nat) : C (List α) := do
  let t ← rd a j
  let u ← rd a i
  let a ← wr a j u
  wr a i t

/-- linalg.c:72-83 `rows_to_top_col`; the copies in `top` are not used afterwards. -/
def rowsToTop {α : Type} (A : List α) (rows : List Nat) (m ncols : Nat) : C (List α) :=
  forN ncols (fun ii A => forN ncols (fun jj A => do
    let p ← rd rows jj
    swapAt A (ii * m + jj) (ii * m + p)) A) A

/-- linalg.c:84-92 `getrows`. -/
def getrows {α : Type} (A top : List α) (rows : List Nat) (arows acols : Nat) : C (List α) :=
  forN acols (fun jj top => forN acols (fun ii top => do
    let p ← rd rows ii
    let v ← rd A (jj * arows + p)
    wr top (jj * acols + ii) v) top) top

/-- `cblas_dger(CblasColMajor,m,n,alpha,x,1,y,1,A,lda)`. -/
def dger (m n : Nat) (alpha : K) (x y A : List K) (lda : Nat) : C (List K) :=
  forN n (fun j A => forN m (fun i A => do
    let a ← rd A (j * lda + i)
    let xi ← rd x i
    let yj ← rd y j
    wr A (j * lda + i) (a + alpha * xi * yj)) A) A

/-- linalg.c:1447-1459: `allrows` after the exchanges. -/
def pivRows (n r : Nat) (ipiv : List Nat) : C (List Nat) :=
  forN r (fun ii al => do
    let jj ← rd ipiv ii
    if jj ≠ ii then swapAt al ii jj else .ok al) (List.range n)

/-- Variables of the loop. -/
structure St (K : Type) where
  B : List K
  inv : List K
  al : List Nat
  rows : List Nat

/-- linalg.c:1499-1506: row `row` of `B` with one subtracted at `col`. -/
def vecY (n r row col : Nat) (B : List K) : C (List K) := do
  let y ← forN r (fun ii y => do
    let b ← rd B (ii * n + row)
    wr y ii b) (List.replicate r 0)
  let v ← rd y col
  wr y col (v - 1)

/-- linalg.c:1499-1509: column `col` of `B` with one subtracted at `col` and added at `row`. -/
def vecX (n r row col : Nat) (B : List K) : C (List K) := do
  let x ← forN r (fun ii x => do
    let b ← rd B (col * n + ii)
    wr x ii b) (List.replicate n 0)
  let x ← forR r n (fun ii x => do
    let b ← rd B (col * n + ii)
    wr x ii b) x
  let v ← rd x col
  let x ← wr x col (v - 1)
  let v ← rd x row
  wr x row (v + 1)

/-- linalg.c:1516-1518: the difference of two rows of `B`. -/
def vecT (n r row col : Nat) (B : List K) : C (List K) :=
  forN r (fun ii t => do
    let a ← rd B (ii * n + row)
    let b ← rd B (ii * n + col)
    wr t ii (a - b)) (List.replicate r 0)

/-- `-1.0/b`. -/
def negInv (b : K) : C K := if b = 0 then .error .ub else .ok (-1 / b)

/-- linalg.c:1495-1528: the exchange of the rows `row` and `col` and the two rank-one updates. -/
def step (n r maxloc : Nat) (s : St K) : C (St K) := do
  let row := maxloc % n
  let col := (maxloc - row) / n
  let y ← vecY n r row col s.B
  let x ← vecX n r row col s.B
  let temp ← rd s.al row
  let al ← swapAt s.al col row
  let rows ← wr s.rows col temp
  let tr ← vecT n r row col s.B
  let ei ← wr (List.replicate r 0) col 1
  let tl ← dgemvN r r s.inv r ei (List.replicate r 0)
  let p ← rd s.B (col * n + row)
  let q ← negInv p
  let inv ← dger r r q tl tr s.inv r
  let B ← dger n r q x y s.B n
  .ok ⟨B, inv, al, rows⟩

/-- linalg.c:1483-1531, the loop; `iter` is checked against `n`, so `n + 2` tests suffice. -/
def mvLoop (delta : K) (n r : Nat) : Nat → Nat → St K → C (St K)
  | 0, _, _ => .error .diverge
  | fuel + 1, iter, s => do
    let m ← maxabs s.B (n * r)
    if m.1 < 1 + delta then .ok s else
    if iter > n then .ok s else do
    let s ← step n r m.2 s
    mvLoop delta n r fuel (iter + 1) s

/-- linalg.c:1402-1546 `maxvol_rhs`: code, rows, inverse; `rows` and `Asinv` are the arrays of the caller. The code passes the first `r*r`
numbers of the `n × r` matrix to `dgetrf` as an `r × r` matrix. `delta` is 0.01. -/
def maxvol (delta : K) (lu : Nat → List K → Int × List Nat) (inv : Nat → List K → List K) (A : List K) (n r : Nat) (rows : List Nat)
    (Asinv : List K) : C (Int × List Nat × List K) :=
  if n < r ∨ A.length < n * r then .error .oob else
  let q := lu r (A.take (r * r))
  if q.1 < 0 then .ok (q.1, rows, Asinv) else do
  let al ← pivRows n r q.2
  let rows ← forN r (fun ii rows => do
    let v ← rd al ii
    wr rows ii v) rows
  let M ← getrows A Asinv rows n r
  let M := inv r M
  let B ← dgemmNN n r r A n M r (List.replicate (n * r) 0) n
  let B ← rowsToTop B q.2 n r
  let s ← mvLoop delta n r (n + 2) 0 ⟨B, M, al, rows⟩
  .ok (0, s.rows, s.inv)

end C3.Sk

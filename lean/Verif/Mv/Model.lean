/-
Maximum-volume pivots of an array of functions: lib_clinalg/qmarray.c `qmarray_maxvol1d`, `qmarray_absmax1d`,
`remove_duplicates`, lib_funcs/functions.c `generic_function_array_absmax`, lib_linalg/linalg.c `pinv`.

The pivoted LU decomposition (modelled in Verif/Qr/LuModel.lean), the maximisation of one univariate function and LAPACK's
singular value decomposition are arguments. `X` is the type of the points (`double`).
-/
import Verif.Round.Model

namespace C3.Mv
open C3.Ft C3.Round
variable {U X : Type}

/-- Index, location and value of a maximum. -/
structure Loc (X : Type) where
  ind : Nat
  x : X
  val : ℝ

/-- functions.c:1917-1940 `generic_function_array_absmax` with stride 1; `am` is `generic_function_absmax`, which returns
the value and the location. -/
noncomputable def arrAbsmax (am : U → C (ℝ × X)) (n : Nat) (fs : List U) : C (Loc X) := do
  let f ← rd fs 0
  let m ← am f
  forR 1 n (fun ii t => do
    let f ← rd fs ii
    let m ← am f
    pure (if m.1 > t.val then ⟨ii, m.2, m.1⟩ else t)) ⟨0, m.2, m.1⟩

/-- qmarray.c:3164-3168, the loop `while ((combrowcol+1) > nrows)`. -/
def subLoop (nrows : Nat) : Nat → Nat → Nat → C (Nat × Nat)
  | 0, _, _ => .error .diverge
  | fuel + 1, c, s => if c + 1 > nrows then subLoop nrows fuel (c - nrows) (s + 1) else .ok (c, s)

/-- Row, column, location and value of a maximum. -/
structure Max (X : Type) where
  row : Nat
  col : Nat
  x : X
  val : ℝ

/-- qmarray.c:3153-3173 `qmarray_absmax1d`. An index `c` needs at most `c` subtractions unless there are no rows. -/
noncomputable def absmax1d (am : U → C (ℝ × X)) (B : Qma U) : C (Max X) := do
  let m ← arrAbsmax am (B.nrows * B.ncols) B.funcs
  let rc ← subLoop B.nrows (m.ind + 1) m.ind 0
  pure ⟨rc.1, rc.2, m.x, m.val⟩

/-- qmarray.c:2301-2306, 2356-2365 and 2408-2413: the values of the rows of `A` at the pivots. The buffer is overwritten
completely each time. -/
def subMat (e : Ev ℝ U X) (A : Qma U) (piv : List Nat) (px : List X) : C (List ℝ) :=
  forN A.ncols (fun ii => forN A.ncols (fun jj u => do
    let p ← rd piv ii
    let f ← rd A.funcs (jj * A.nrows + p)
    let x ← rd px ii
    wr u (jj * A.ncols + ii) (e.ev f x))) (List.replicate (A.ncols * A.ncols) 0)

/-- What `qmarray_lu1d` returns. -/
structure LuRes (X : Type) where
  info : Int
  piv : List Nat
  px : List X

/-- The routines `qmarray_maxvol1d` is built on. `lu k A` is `qmarray_lu1d` with the options of dimension `k` on a copy of
`A`, `am` is `generic_function_absmax`, `pinv r M` the pseudoinverse of an `r × r` matrix, `dedup A piv px` is
`remove_duplicates` with the bounds of the first function of `A`: the new locations. -/
structure MvOps (U X : Type) where
  lin : LOps ℝ U
  lu : Nat → Qma U → C (LuRes X)
  am : U → C (ℝ × X)
  pinv : Nat → List ℝ → C (List ℝ)
  dedup : Qma U → List Nat → List X → C (List X)

/-- Pivots, inverse of the submatrix, and the largest entry of `A` times that inverse. -/
structure Ms (X : Type) where
  piv : List Nat
  px : List X
  inv : List ℝ
  mx : Max X

/-- qmarray.c:2301-2344 and 2356-2373: invert the submatrix at the pivots and find the largest entry of the product. -/
noncomputable def refresh (e : Ev ℝ U X) (o : MvOps U X) (A : Qma U) (piv : List Nat) (px : List X) : C (Ms X) := do
  let u ← subMat e A piv px
  let inv ← o.pinv A.ncols u
  let B ← qmam o.lin A inv A.ncols
  let m ← absmax1d o.am B
  pure ⟨piv, px, inv, m⟩

/-- qmarray.c:2351-2390, the loop `while (maxval > (1.0 + delta))`; the number is `iter`. -/
noncomputable def mvLoop (e : Ev ℝ U X) (o : MvOps U X) (A : Qma U) : Nat → Nat → Ms X → C (Ms X × Nat)
  | 0, _, _ => .error .diverge
  | fuel + 1, iter, s =>
    if s.mx.val > 1 + 1 / 100 then do
      let piv ← wr s.piv s.mx.col s.mx.row
      let px ← wr s.px s.mx.col s.mx.x
      let t ← refresh e o A piv px
      if iter > 30 then pure (t, iter) else mvLoop e o A fuel (iter + 1) t
    else pure (s, iter)

/-- What `qmarray_maxvol1d` returns. -/
structure MvRes (X : Type) where
  info : Int
  inv : List ℝ
  piv : List Nat
  px : List X

/-- qmarray.c:2392-2395. -/
def lastSwap (s : Ms X) (iter : Nat) : C (List Nat × List X) :=
  if iter > 0 then do
    let piv ← wr s.piv s.mx.col s.mx.row
    let px ← wr s.px s.mx.col s.mx.x
    pure (piv, px)
  else pure (s.piv, s.px)

/-- qmarray.c:2404-2415: with one column the inverse of the loop is kept. -/
def finish (e : Ev ℝ U X) (o : MvOps U X) (A : Qma U) (inv : List ℝ) (p : List Nat × List X) : C (List ℝ × List X) :=
  if A.ncols > 1 then do
    let px ← o.dedup A p.1 p.2
    let u ← subMat e A p.1 px
    let inv ← o.pinv A.ncols u
    pure (inv, px)
  else pure (inv, p.2)

/-- qmarray.c:2261-2430 `qmarray_maxvol1d`; `inv0` is the content of `Asinv` at the call. The loop makes at most 32 passes,
so the fuel is never used up. -/
noncomputable def maxvol (e : Ev ℝ U X) (o : MvOps U X) (k : Nat) (A : Qma U) (inv0 : List ℝ) : C (MvRes X) := do
  let l ← o.lu k A
  if l.info > 0 then pure ⟨l.info, inv0, l.piv, l.px⟩
  else do
    let s ← refresh e o A l.piv l.px
    let t ← mvLoop e o A 33 0 s
    let p ← lastSwap t.1 t.2
    let w ← finish e o A t.1.inv p
    pure ⟨l.info, w.1, p.1, w.2⟩

/-! ### `remove_duplicates` -/

/-- qmarray.c:2077-2096: the first `jj > ii` in the row of `ii` closer than `thr`. -/
noncomputable def dupJ (thr : ℝ) (piv : List Nat) (px : List ℝ) (ii : Nat) : Nat → Nat → C (Option Nat)
  | 0, _ => .ok none
  | n + 1, jj => do
    let p ← rd piv ii
    let q ← rd piv jj
    let x ← rd px ii
    let y ← rd px jj
    if p = q ∧ |x - y| < thr then pure (some jj) else dupJ thr piv px ii n (jj + 1)

/-- qmarray.c:2076-2104: the first pair, row by row; `n` rows are left, starting with `ii`. -/
noncomputable def dupI (thr : ℝ) (dim : Nat) (piv : List Nat) (px : List ℝ) : Nat → Nat → C (Option Nat)
  | 0, _ => .ok none
  | n + 1, ii => do
    let r ← dupJ thr piv px ii (dim - (ii + 1)) (ii + 1)
    match r with
    | some j => pure (some j)
    | none => dupI thr dim piv px n (ii + 1)

/-- qmarray.c:2061-2106 `remove_duplicates`: the new locations; `fuel` bounds the number of passes of the outer loop. -/
noncomputable def rdup (thr lb ub : ℝ) (dim : Nat) (piv : List Nat) : Nat → List ℝ → C (List ℝ)
  | 0, _ => .error .diverge
  | fuel + 1, px => do
    let r ← dupI thr dim piv px dim 0
    match r with
    | none => pure px
    | some j => do
      let y ← rd px j
      let px ← wr px j (if |y - lb| > thr then (y + lb) / 2 else (y + ub) / 2)
      rdup thr lb ub dim piv fuel px

/-! ### `pinv` -/

/-- linalg.c:428-440: reciprocals of the singular values not below the cutoff; the second component is the rank. -/
noncomputable def recip (n : Nat) (cutoff : ℝ) (s : List ℝ) (m : Nat) : C (List ℝ × Nat) :=
  forN n (fun ii t => do
    let v ← rd s ii
    if |v| < cutoff then do
      let sm ← wr t.1 (ii * m + ii) 0
      pure (sm, t.2)
    else if v = 0 then .error .ub
    else do
      let sm ← wr t.1 (ii * m + ii) (1 / v)
      pure (sm, t.2 + 1)) (List.replicate (m * m) 0, 0)

/-- `cblas_dgemm` for square matrices of order `m`: `ia i l` and `ib l j` are the positions of the entries of the two
factors (transposed or not), the result is stored by columns. -/
noncomputable def gemmX (m : Nat) (A : List ℝ) (ia : Nat → Nat → Nat) (B : List ℝ) (ib : Nat → Nat → Nat) : C (List ℝ) :=
  forN m (fun j => forN m (fun i c => do
    let s ← forN m (fun l s => do
      let a ← rd A (ia i l)
      let b ← rd B (ib l j)
      pure (s + a * b)) 0
    wr c (j * m + i) s)) (List.replicate (m * m) 0)

/-- linalg.c:416-459 `pinv` on a square matrix with leading dimension `m`: inverse and rank. -/
noncomputable def pinv (svd : Nat → Nat → List ℝ → C Svd) (cutoff : ℝ) (m : Nat) (a : List ℝ) : C (List ℝ × Nat) := do
  let w ← svd m m a
  let sm ← recip m cutoff w.s m
  let temp ← gemmX m w.vt (fun i l => i * m + l) sm.1 (fun l j => l * m + j)
  let ainv ← gemmX m temp (fun i l => l * m + i) w.u (fun l j => l * m + j)
  pure (ainv, sm.2)

end C3.Mv

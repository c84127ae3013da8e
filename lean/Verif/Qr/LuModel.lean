/-
Cross LU factorizations (c3/lib_clinalg/quasimatrix.c, c3/lib_clinalg/qmarray.c).

A univariate function is its map `K → K`; `generic_function_daxpby` is exact. The search for the location of the largest absolute value
(`generic_function_absmax`, `generic_function_array_absmax`) is the argument `am`, any function; `ZEROTHRESH` is `thr`.
-/
import Verif.Core.Mem
import Verif.Lin.Model
import Mathlib.Algebra.Order.Field.Basic

namespace C3.Qr.Lu
open C3.Lin (dv)

variable {K : Type} [Field K] [LinearOrder K]

/-- Working arrays of `quasimatrix_lu1d`. -/
structure QS (K : Type) where
  A : List (K → K)
  L : List (K → K)
  u : List K
  p : List K

/-- quasimatrix.c:739-746: the column of the left factor. -/
def qcol (thr val : K) (a : K → K) : C (K → K) :=
  if |val| < 2 * thr then .ok (fun _ => 1) else do
    let c ← dv 1 val
    pure (fun x => c * a x)

/-- quasimatrix.c:747-760: column `ii` of the update; the result is copied back through a temporary. -/
def qrow (n kk : Nat) (lk : K → K) (loc : K) (ii : Nat) (s : List (K → K) × List K) : C (List (K → K) × List K) := do
  let a ← rd s.1 ii
  let u ← wr s.2 (ii * n + kk) (a loc)
  let uu ← rd u (ii * n + kk)
  let A ← wr s.1 ii (fun x => 1 * a x + (-uu) * lk x)
  pure (A, u)

/-- quasimatrix.c:732-760: step `kk`. -/
def qstep (thr : K) (am : (K → K) → K) (n kk : Nat) (s : QS K) : C (QS K) := do
  let a ← rd s.A kk
  let p ← wr s.p kk (am a)
  let lk ← qcol thr (a (am a)) a
  let L ← wr s.L kk lk
  let Au ← forN n (qrow n kk lk (am a)) (s.A, s.u)
  pure ⟨Au.1, L, Au.2, p⟩

/-- quasimatrix.c:762-767, qmarray.c:2050-2055: minus the number of small diagonal entries. -/
def info (thr : K) (n : Nat) (u : List K) : C Int :=
  forN n (fun kk i => do
    let d ← rd u (kk * n + kk)
    pure (if |d| < thr then i - 1 else i)) 0

/-- quasimatrix.c:719-769 `quasimatrix_lu1d`: `A` is overwritten with what is left. -/
def quasimatrixLu (thr : K) (am : (K → K) → K) (n : Nat) (A L : List (K → K)) (u p : List K) : C (QS K × Int) := do
  let s ← forN n (qstep thr am n) ⟨A, L, u, p⟩
  let i ← info thr n s.u
  pure (s, i)

/-- Working arrays of `qmarray_lu1d`. -/
structure MS (K : Type) where
  A : List (K → K)
  L : List (K → K)
  u : List K
  piv : List Nat
  px : List K

/-- The functions of a column, as seen by the search for the pivot. -/
def column (nrows j : Nat) (A : List (K → K)) : C (List (K → K)) :=
  forN nrows (fun i z => do
    let f ← rd A (j * nrows + i)
    wr z i f) (List.replicate nrows (fun _ => 0))

/-- qmarray.c:1965-2003: the column of the left factor and the pivot. `anyL kk piv px` stands for `create_any_L` or
`generic_function_array_onezero`, which return a column and may replace the pivot `kk`. -/
def mcol (thr : K) (nrows kk : Nat) (anyL : Nat → List Nat → List K → C (List (K → K) × List Nat × List K)) (val : K) (piv : List Nat)
    (px : List K) (A : List (K → K)) : C (List (K → K) × List Nat × List K) :=
  if |val| ≤ thr then anyL kk piv px else do
    let c ← dv 1 val
    let L ← forN nrows (fun i z => do
      let f ← rd A (kk * nrows + i)
      wr z i (fun x => c * f x)) (List.replicate nrows (fun _ => 0))
    pure (L, piv, px)

/-- qmarray.c:2001-2006 (the writes to `L->funcs + kk*L->nrows`). -/
def setCol (nrows kk : Nat) (c L : List (K → K)) : C (List (K → K)) :=
  forN nrows (fun i L => do
    let f ← rd c i
    wr L (kk * nrows + i) f) L

/-- qmarray.c:2021-2046: column `ii` of the update; the temporary column and its copy back are one loop here. -/
def mrow (nrows ncols kk : Nat) (val : K) (amind : Nat) (amloc : K) (L : List (K → K)) (ii : Nat) (s : List (K → K) × List K) :
    C (List (K → K) × List K) := do
  let g ← rd s.1 (ii * nrows + amind)
  let u ← wr s.2 (ii * ncols + kk) (if ii = kk then val else g amloc)
  let uu ← rd u (ii * ncols + kk)
  let A ← forN nrows (fun l A => do
    let a ← rd A (ii * nrows + l)
    let b ← rd L (kk * nrows + l)
    wr A (ii * nrows + l) (fun x => 1 * a x + (-uu) * b x)) s.1
  pure (A, u)

/-- qmarray.c:1939-2048: step `kk`. -/
def mstep (thr : K) (am : List (K → K) → Nat × K) (anyL : Nat → List Nat → List K → C (List (K → K) × List Nat × List K)) (nrows ncols kk : Nat)
    (s : MS K) : C (MS K) := do
  let col ← column nrows kk s.A
  let piv ← wr s.piv kk (am col).1
  let px ← wr s.px kk (am col).2
  let f ← rd s.A (kk * nrows + (am col).1)
  let w ← mcol thr nrows kk anyL (f (am col).2) piv px s.A
  let L ← setCol nrows kk w.1 s.L
  let amind ← rd w.2.1 kk
  let amloc ← rd w.2.2 kk
  let Au ← forN ncols (mrow nrows ncols kk (f (am col).2) amind amloc L) (s.A, s.u)
  pure ⟨Au.1, L, Au.2, w.2.1, w.2.2⟩

/-- qmarray.c:1928-2058 `qmarray_lu1d`. -/
def qmarrayLu (thr : K) (am : List (K → K) → Nat × K) (anyL : Nat → List Nat → List K → C (List (K → K) × List Nat × List K)) (nrows ncols : Nat)
    (A L : List (K → K)) (u : List K) (piv : List Nat) (px : List K) : C (MS K × Int) := do
  let s ← forN ncols (mstep thr am anyL nrows ncols) ⟨A, L, u, piv, px⟩
  let i ← info thr ncols s.u
  pure (s, i)

/-- qmarray.c:1770-1778: the pivots before `upto` that lie in row `ii`. -/
def zerosOf (upto : Nat) (piv : List Nat) (px : List K) (ii : Nat) : C (List K) :=
  forN upto (fun jj z => do
    let p ← rd piv jj
    if p = ii then do
      let x ← rd px jj
      pure (z ++ [x])
    else pure z) []

/-- qmarray.c:1759-1826 `create_any_L`; the approximation of the product of the linear factors is taken to be exact. -/
def createAnyL (thr : K) (am : List (K → K) → Nat × K) (nrows upto : Nat) (piv : List Nat) (px : List K) :
    C (List (K → K) × List Nat × List K) := do
  let L ← forN nrows (fun ii L => do
    let z ← zerosOf upto piv px ii
    wr L ii (if z.length = 0 then (fun _ => 1) else fun x => (z.map (fun a => x - a)).prod)) (List.replicate nrows (fun _ => 0))
  let px ← wr px upto (am L).2
  let piv ← wr piv upto (am L).1
  let f ← rd L (am L).1
  let v := f (am L).2
  let c ← dv 1 v
  let L ← forN nrows (fun i L => do
    let g ← rd L i
    wr L i (fun x => c * g x)) L
  cassert (thr < |v|)
  pure (L, piv, px)

end C3.Qr.Lu

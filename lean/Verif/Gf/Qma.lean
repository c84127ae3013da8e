/-
Rows, columns and norms of quasimatrix arrays (C148): c3/lib_clinalg/qmarray.c `qmarray_get_func`, `qmarray_set_row`, `qmarray_extract_row`,
`qmarray_set_column`, `qmarray_set_column_gf`, `qmarray_extract_column`, `qmarray_norm2`, `qmarray_norm2diff`, with quasimatrix.c
`quasimatrix_get_func` and `quasimatrix_set_func`. Freeing the replaced function only reads its pointer. `malloc` never fails.
-/
import Verif.Gf.Quasi
import Mathlib.Algebra.Order.Group.Unbundled.Abs
import Mathlib.Algebra.Order.Field.Basic

namespace C3.Gf
open C3.Ft (Qma)

variable {K V X : Type}

/-- quasimatrix.c:146-152 `quasimatrix_get_func` (the quasimatrix is not NULL). -/
def qmGet (q : QM V) (ind : Nat) : C (GF V) := do
  cassert (decide (ind < q.n))
  rd q.funcs ind

/-- qmarray.c:669-677 `qmarray_get_func` (the array is not NULL). -/
def qmaGet (a : Qma (GF V)) (row col : Nat) : C (GF V) := do
  cassert (decide (row < a.nrows))
  cassert (decide (col < a.ncols))
  rd a.funcs (col * a.nrows + row)

/-- qmarray.c:686-695 `qmarray_set_row`. -/
def setRow (a : Qma (GF V)) (row : Nat) (q : QM V) : C (Qma (GF V)) := do
  let fs ← forN a.ncols (fun ii fs => do
    let _ ← rd fs (ii * a.nrows + row)
    let f ← qmGet q ii
    let f ← copy f
    wr fs (ii * a.nrows + row) f) a.funcs
  .ok { a with funcs := fs }

/-- qmarray.c:705-716 `qmarray_extract_row`. The new quasimatrix has as many functions as are set, so that the check in
quasimatrix.c:157-165 `quasimatrix_set_func` never fails. -/
def extractRow (a : Qma (GF V)) (row : Nat) : C (QM V) := do
  let fs ← Ft.collect a.ncols (fun ii => do
    let f ← rd a.funcs (ii * a.nrows + row)
    copy f)
  .ok ⟨a.ncols, fs⟩

/-- qmarray.c:726-735 `qmarray_set_column`. -/
def setCol (a : Qma (GF V)) (col : Nat) (q : QM V) : C (Qma (GF V)) := do
  let fs ← forN a.nrows (fun ii fs => do
    let _ ← rd fs (col * a.nrows + ii)
    let f ← qmGet q ii
    let f ← copy f
    wr fs (col * a.nrows + ii) f) a.funcs
  .ok { a with funcs := fs }

/-- qmarray.c:747-756 `qmarray_set_column_gf`. -/
def setColGf (a : Qma (GF V)) (col : Nat) (gf : List (GF V)) : C (Qma (GF V)) := do
  let fs ← forN a.nrows (fun ii fs => do
    let _ ← rd fs (col * a.nrows + ii)
    let f ← rd gf ii
    let f ← copy f
    wr fs (col * a.nrows + ii) f) a.funcs
  .ok { a with funcs := fs }

/-- qmarray.c:766-777 `qmarray_extract_column`. -/
def extractCol (a : Qma (GF V)) (col : Nat) : C (QM V) := do
  let fs ← Ft.collect a.nrows (fun ii => do
    let f ← rd a.funcs (col * a.nrows + ii)
    copy f)
  .ok ⟨a.nrows, fs⟩

/-- qmarray.c:1677-1693 `qmarray_norm2`; `sq` is `sqrt`. -/
def qmaNorm2 [Field K] [LinearOrder K] (I : Impl K V X) (sq : K → K) (a : Qma (GF V)) : C K := do
  let out ← forN (a.ncols * a.nrows) (fun ii out => do
    let f ← rd a.funcs ii
    let v ← inner I f f
    .ok (out + v)) 0
  if out < 0 then .error .exit else .ok (sq |out|)

/-- qmarray.c:1703-1721 `qmarray_norm2diff`. The shapes are not compared. -/
def qmaNorm2diff [Field K] [LinearOrder K] (I : Impl K V X) (sq : K → K) (a b : Qma (GF V)) : C K := do
  let temp ← arrayDaxpby I (a.ncols * a.nrows) 1 1 (some a.funcs) (-1) 1 (some b.funcs)
  let out ← forN (a.ncols * a.nrows) (fun ii out => do
    let f ← rd temp ii
    let v ← inner I f f
    .ok (out + v)) 0
  if out < 0 then .error .exit else .ok (sq out)

end C3.Gf

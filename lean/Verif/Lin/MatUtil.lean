/-
The small matrices of c3/lib_linalg/matrix_util.c (`v2m`, `horizcat`, `block_diag`, `mat_ones`) and the Kronecker product of linalg.c (C145).
Matrices are stored by rows. `malloc` never fails.
-/
import Verif.Tt.Model

namespace C3.Mu

variable {K : Type} [CommRing K]

/-- matrix_util.h `struct mat`. -/
structure Mat (K : Type) where
  nrows : Nat
  ncols : Nat
  vals : List K
  deriving DecidableEq

/-- matrix_util.c:68-87 `v2m`: the sizes (`none` = never stored) and the values. -/
def v2m (n : Nat) (arr : List K) (asrow : Int) : C (Option (Nat × Nat) × List K) := do
  let v ← Tt.blit n (List.replicate n 0) 0 arr 0
  .ok (if asrow = 0 then some (n, 1) else if asrow = 1 then some (1, n) else none, v)

/-- matrix_util.c:129-153 `horizcat`. Different numbers of rows only give a message. -/
def horizcat (a b : Mat K) : C (Mat K) := do
  let v ← forN a.nrows (fun ii v => do
    let v ← Tt.blit a.ncols v (ii * (a.ncols + b.ncols)) a.vals (ii * a.ncols)
    Tt.blit b.ncols v (ii * (a.ncols + b.ncols) + a.ncols) b.vals (ii * b.ncols))
    (List.replicate (a.nrows * (a.ncols + b.ncols)) 0)
  .ok ⟨a.nrows, a.ncols + b.ncols, v⟩

/-- matrix_util.c:173-179: the sizes. -/
def bdSize (ms : List (Mat K)) (n : Nat) : C (Nat × Nat) :=
  forN n (fun ii s => do
    let m ← rd ms ii
    .ok (s.1 + m.nrows, s.2 + m.ncols)) (0, 0)

/-- matrix_util.c:186-191: the rows of one block; state: values and `row`. -/
def bdBlock (m : Mat K) (ncols cols : Nat) (s : List K × Nat) : C (List K × Nat) :=
  forN m.nrows (fun jj s => do
    let v ← Tt.blit m.ncols s.1 (s.2 * ncols + cols) m.vals (jj * m.ncols)
    .ok (v, s.2 + 1)) s

/-- matrix_util.c:166-196 `block_diag`; the state of the loop is values, `row`, `cols`. -/
def blockDiag (ms : List (Mat K)) (n : Nat) : C (Mat K) := do
  let sz ← bdSize ms n
  let s ← forN n (fun ii (s : List K × Nat × Nat) => do
    let m ← rd ms ii
    let t ← bdBlock m sz.2 s.2.2 (s.1, s.2.1)
    .ok (t.1, t.2, s.2.2 + m.ncols)) (List.replicate (sz.1 * sz.2) 0, 0, 0)
  .ok ⟨sz.1, sz.2, s.1⟩

/-- matrix_util.c:234-245 `mat_ones`. -/
def ones (nrows ncols : Nat) : C (Mat K) := do
  let v ← forN nrows (fun ii => forN ncols (fun jj v => wr v (ii * ncols + jj) 1)) (List.replicate (nrows * ncols) 0)
  .ok ⟨nrows, ncols, v⟩

/-- linalg.c:564-590 `kron`. -/
def kron (a b : Mat K) : C (Mat K) := do
  let v ← forN a.nrows (fun ii => forN a.ncols (fun jj => forN b.nrows (fun kk => forN b.ncols (fun ll v => do
    let x ← rd a.vals (ii * a.ncols + jj)
    let y ← rd b.vals (kk * b.ncols + ll)
    wr v ((ii * b.nrows + kk) * (a.ncols * b.ncols) + (jj * b.ncols + ll)) (x * y)))))
    (List.replicate ((a.nrows * b.nrows) * (a.ncols * b.ncols)) 0)
  .ok ⟨a.nrows * b.nrows, a.ncols * b.ncols, v⟩

end C3.Mu

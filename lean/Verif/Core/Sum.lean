/-
Accumulation loops and the BLAS level-1/2/3 calls used by the library, on column-major buffers.
-/
import Verif.Core.Buf
import Mathlib.Algebra.BigOperators.Ring.Finset
import Mathlib.Algebra.BigOperators.Intervals
import Mathlib.Algebra.Field.Basic

namespace C3
open Finset

variable {K : Type} [CommRing K]

theorem forN_sum {n : Nat} {body : Nat → K → C K} {s0 : K} (g : Nat → K)
    (hb : ∀ i < n, ∀ s, body i s = .ok (s + g i)) : forN n body s0 = .ok (s0 + ∑ i ∈ range n, g i) := by
  have := forN_traj (fun i => s0 + ∑ j ∈ range i, g j) (n := n) (body := body)
    (fun i hi => by rw [hb i hi, sum_range_succ, add_assoc])
  simpa using this

theorem rd_getD {α : Type} {a : List α} {i : Nat} (d : α) (h : i < a.length) : rd a i = .ok (a.getD i d) := by
  rw [rd_ok h]; simp [h]

/-- `cblas_ddot(n,x,incx,y,incy)`. -/
def ddot (n : Nat) (x : List K) (incx : Nat) (y : List K) (incy : Nat) : C K :=
  forN n (fun i s => do
    let a ← rd x (i * incx)
    let b ← rd y (i * incy)
    pure (s + a * b)) 0

theorem ddot_ok {n : Nat} {x y : List K} {incx incy : Nat} (hx : ∀ i < n, i * incx < x.length)
    (hy : ∀ i < n, i * incy < y.length) :
    ddot n x incx y incy = .ok (∑ i ∈ range n, x.getD (i * incx) 0 * y.getD (i * incy) 0) := by
  rw [ddot, forN_sum (fun i => x.getD (i * incx) 0 * y.getD (i * incy) 0), zero_add]
  intro i hi s
  rw [rd_getD 0 (hx i hi), rd_getD 0 (hy i hi)]; rfl

/-- `cblas_dgemv(CblasColMajor,CblasTrans,m,n,1.0,A,lda,x,1,0.0,y,1)`: `y[j] = Σ_i A[j*lda+i] x[i]` for `j < n`. -/
def dgemvT (m n : Nat) (A : List K) (lda : Nat) (x y : List K) : C (List K) :=
  forN n (fun j y => do
    let s ← forN m (fun i s => do
      let a ← rd A (j * lda + i)
      let b ← rd x i
      pure (s + a * b)) 0
    wr y j s) y

/-- `cblas_dgemv(CblasColMajor,CblasNoTrans,m,n,1.0,A,lda,x,1,0.0,y,1)`: `y[i] = Σ_j A[j*lda+i] x[j]` for `i < m`. -/
def dgemvN (m n : Nat) (A : List K) (lda : Nat) (x y : List K) : C (List K) :=
  forN m (fun i y => do
    let s ← forN n (fun j s => do
      let a ← rd A (j * lda + i)
      let b ← rd x j
      pure (s + a * b)) 0
    wr y i s) y

theorem dgemvT_ok {m n : Nat} {A x y : List K} (hA : m * n ≤ A.length) (hx : m ≤ x.length) (hy : n ≤ y.length) :
    dgemvT m n A m x y =
      .ok ((List.range n).map (fun j => ∑ i ∈ range m, A.getD (j * m + i) 0 * x.getD i 0) ++ y.drop n) := by
  rw [dgemvT, forN_fill (off := 0) (fun j => ∑ i ∈ range m, A.getD (j * m + i) 0 * x.getD i 0) (by omega)]
  · simp
  · intro j hj b _
    rw [forN_sum (fun i => A.getD (j * m + i) 0 * x.getD i 0), bind_ok, zero_add, Nat.zero_add]
    intro i hi s
    rw [rd_getD 0 (lt_of_lt_of_le (cm_idx_lt hi hj) hA), rd_getD 0 (by omega)]; rfl

theorem dgemvN_ok {m n : Nat} {A x y : List K} (hA : m * n ≤ A.length) (hx : n ≤ x.length) (hy : m ≤ y.length) :
    dgemvN m n A m x y =
      .ok ((List.range m).map (fun i => ∑ j ∈ range n, A.getD (j * m + i) 0 * x.getD j 0) ++ y.drop m) := by
  rw [dgemvN, forN_fill (off := 0) (fun i => ∑ j ∈ range n, A.getD (j * m + i) 0 * x.getD j 0) (by omega)]
  · simp
  · intro i hi b _
    rw [forN_sum (fun j => A.getD (j * m + i) 0 * x.getD j 0), bind_ok, zero_add, Nat.zero_add]
    intro j hj s
    rw [rd_getD 0 (lt_of_lt_of_le (cm_idx_lt hi hj) hA), rd_getD 0 (by omega)]; rfl

theorem getD_map_range {α : Type} {n i : Nat} (g : Nat → α) (d : α) (l : List α) (h : i < n) :
    ((List.range n).map g ++ l).getD i d = g i := by
  rw [List.getD_eq_getElem?_getD, List.getElem?_append_left (by simpa using h), List.getElem?_map,
    List.getElem?_range h]; rfl

theorem getD_cm {α : Type} {n m i j : Nat} (g : Nat → Nat → α) (d : α) (hi : i < n) (hj : j < m) :
    (cm n m g).getD (j * n + i) d = g i j := by
  rw [List.getD_eq_getElem?_getD, cm_getElem? g hi hj]; rfl

/-- `cblas_dgemm(CblasColMajor,CblasNoTrans,CblasNoTrans,m,n,k,1.0,A,lda,B,ldb,0.0,Cm,ldc)`. -/
def dgemmNN (m n k : Nat) (A : List K) (lda : Nat) (B : List K) (ldb : Nat) (Cm : List K) (ldc : Nat) : C (List K) :=
  forN n (fun j c => forN m (fun i c => do
    let s ← forN k (fun t s => do
      let a ← rd A (t * lda + i)
      let b ← rd B (j * ldb + t)
      pure (s + a * b)) 0
    wr c (j * ldc + i) s) c) Cm

theorem dgemmNN_ok {m n k : Nat} {A B c : List K} (hA : m * k ≤ A.length) (hB : k * n ≤ B.length)
    (hc : c.length = m * n) :
    dgemmNN m n k A m B k c m =
      .ok (cm m n (fun i j => ∑ t ∈ range k, A.getD (t * m + i) 0 * B.getD (j * k + t) 0)) := by
  rw [dgemmNN, forN_fill_cm _ hc]
  intro j hj i hi b _
  rw [forN_sum (fun t => A.getD (t * m + i) 0 * B.getD (j * k + t) 0), bind_ok, zero_add]
  intro t ht s
  rw [rd_getD 0 (lt_of_lt_of_le (cm_idx_lt hi ht) hA), rd_getD 0 (lt_of_lt_of_le (cm_idx_lt ht hj) hB)]; rfl

end C3

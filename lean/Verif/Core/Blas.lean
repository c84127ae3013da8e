/-
General level-2/3 BLAS calls with offsets, leading dimensions and increments, and loops that update entries of a buffer.
-/
import Verif.Core.Sum

set_option linter.unusedSectionVars false

namespace C3
open Finset

variable {K : Type} [CommRing K]

/-- Argument check of a BLAS routine: an illegal argument is reported and the program stops
(reference CBLAS: `cblas_xerbla`). -/
def blasArg (b : Bool) : C Unit := if b then .ok () else .error .exit

theorem blasArg_of {b : Bool} (h : b = true) : blasArg b = .ok () := by simp [blasArg, h]

/-- `cblas_dgemv(CblasColMajor,CblasTrans,m,n,1.0,A+ao,lda,x+xo,incx,0.0,y,1)`. -/
def gemvT (m n : Nat) (A : List K) (ao lda : Nat) (x : List K) (xo incx : Nat) (y : List K) : C (List K) := do
  blasArg (decide (max 1 m ≤ lda) && decide (incx ≠ 0))
  forN n (fun j y => do
    let s ← forN m (fun i s => do
      let a ← rd A (ao + (j * lda + i))
      let b ← rd x (xo + i * incx)
      pure (s + a * b)) 0
    wr y j s) y

theorem gemvT_ok {m n ao lda xo incx : Nat} {A x y : List K} (hl : max 1 m ≤ lda) (hi : incx ≠ 0)
    (hA : ∀ i < m, ∀ j < n, ao + (j * lda + i) < A.length) (hx : ∀ i < m, xo + i * incx < x.length)
    (hy : y.length = n) :
    gemvT m n A ao lda x xo incx y =
      .ok ((List.range n).map (fun j => ∑ i ∈ range m, A.getD (ao + (j * lda + i)) 0 * x.getD (xo + i * incx) 0)) := by
  rw [gemvT, blasArg_of (by simp only [Bool.and_eq_true, decide_eq_true_eq]; exact ⟨hl, hi⟩), bind_ok,
    forN_fill_all (fun j => ∑ i ∈ range m, A.getD (ao + (j * lda + i)) 0 * x.getD (xo + i * incx) 0) hy]
  intro j hj b _
  rw [forN_sum (fun i => A.getD (ao + (j * lda + i)) 0 * x.getD (xo + i * incx) 0), bind_ok, zero_add]
  intro i hi s
  rw [rd_getD 0 (hA i hi j hj), rd_getD 0 (hx i hi)]; rfl

/-- Matrix product with arbitrary strides: `C[co(i,j)] = beta C[co(i,j)] + Σ_t A[a(i,t)] B[b(t,j)]`, `i < m`, `j < n`,
`t < k`. The two variants of `cblas_dgemm` used by the library below are instances. -/
def gemmG (m n k : Nat) (A : List K) (a : Nat → Nat → Nat) (B : List K) (b : Nat → Nat → Nat) (beta : K) (Cm : List K)
    (co : Nat → Nat → Nat) : C (List K) :=
  forN m (fun i => forN n (fun j c => do
    let s ← forN k (fun t s => do
      let x ← rd A (a i t)
      let y ← rd B (b t j)
      pure (s + x * y)) 0
    let old ← rd c (co i j)
    wr c (co i j) (beta * old + s))) Cm

/-- `cblas_dgemm(CblasColMajor,CblasTrans,CblasNoTrans,m,n,k,1.0,A+ao,lda,B+bo,ldb,beta,C,ldc)`. -/
def gemmColTN (m n k : Nat) (A : List K) (ao lda : Nat) (B : List K) (bo ldb : Nat) (beta : K) (Cm : List K) (ldc : Nat) :
    C (List K) := do
  blasArg (decide (max 1 k ≤ lda) && decide (max 1 k ≤ ldb) && decide (max 1 m ≤ ldc))
  gemmG m n k A (fun i t => ao + (i * lda + t)) B (fun t j => bo + (j * ldb + t)) beta Cm (fun i j => j * ldc + i)

/-- `cblas_dgemm(CblasRowMajor,CblasNoTrans,CblasTrans,m,n,k,1.0,A+ao,lda,B+bo,ldb,beta,C,ldc)`. -/
def gemmRowNT (m n k : Nat) (A : List K) (ao lda : Nat) (B : List K) (bo ldb : Nat) (beta : K) (Cm : List K) (ldc : Nat) :
    C (List K) := do
  blasArg (decide (max 1 k ≤ lda) && decide (max 1 k ≤ ldb) && decide (max 1 n ≤ ldc))
  gemmG m n k A (fun i t => ao + (i * lda + t)) B (fun t j => bo + (j * ldb + t)) beta Cm (fun i j => i * ldc + j)

/-- Two nested loops that update pairwise different positions, each from its old contents. -/
theorem forN_upd2 {α : Type} {A B : Nat} {body : Nat → Nat → List α → C (List α)} {a : List α}
    (idx : Nat → Nat → Nat) (g : Nat → Nat → α)
    (hin : ∀ i < A, ∀ j < B, idx i j < a.length)
    (hinj : ∀ i < A, ∀ j < B, ∀ i' < A, ∀ j' < B, idx i j = idx i' j' → i = i' ∧ j = j')
    (hb : ∀ i < A, ∀ j < B, ∀ b : List α, b.length = a.length → b[idx i j]? = a[idx i j]? →
      body i j b = wr b (idx i j) (g i j)) :
    ∃ b, forN A (fun i => forN B (body i)) a = .ok b ∧ b.length = a.length ∧
      (∀ i < A, ∀ j < B, b[idx i j]? = some (g i j)) ∧
      ∀ k, (∀ i < A, ∀ j < B, idx i j ≠ k) → b[k]? = a[k]? := by
  obtain ⟨b, h1, h2⟩ := forN_spec
    (I := fun i (b : List α) => b.length = a.length ∧ (∀ i' < i, ∀ j < B, b[idx i' j]? = some (g i' j)) ∧
      ∀ k, (∀ i' < i, ∀ j < B, idx i' j ≠ k) → b[k]? = a[k]?)
    (n := A) (body := fun i => forN B (body i)) (s := a) ⟨rfl, by simp, by simp⟩
    (by
      rintro i hi b ⟨hl, hw, hu⟩
      obtain ⟨b', e1, e2, e3, e4⟩ := forN_scatter (n := B) (body := body i) (a := b) (idx i) (g i)
        (by intro j hj; rw [hl]; exact hin i hi j hj)
        (by intro j hj j' hj' e; exact (hinj i hi j hj i hi j' hj' e).2)
        (by
          intro j hj c hc hc2 _
          refine hb i hi j hj c (hc.trans hl) ?_
          rw [hc2 _ (fun k hk e => by have := (hinj i hi k (by omega) i hi j hj e).2; omega)]
          exact hu _ (fun i' hi' j' hj' e => by have := (hinj i' (by omega) j' hj' i hi j hj e).1; omega))
      refine ⟨b', e1, e2.trans hl, ?_, ?_⟩
      · intro i' hi' j hj
        by_cases h : i' = i
        · subst h; exact e3 j hj
        · rw [e4 (idx i' j) (fun j' hj' e => h (hinj i hi j' hj' i' (by omega) j hj e).1.symm)]
          exact hw i' (by omega) j hj
      · intro k hk
        rw [e4 k (fun j hj => hk i (by omega) j hj)]
        exact hu k (fun i' hi' j hj => hk i' (by omega) j hj))
  exact ⟨b, h1, h2⟩

theorem gemmG_ok {m n k : Nat} {A B c : List K} {a b co : Nat → Nat → Nat} {beta : K}
    (hA : ∀ i < m, ∀ t < k, a i t < A.length) (hB : ∀ t < k, ∀ j < n, b t j < B.length)
    (hin : ∀ i < m, ∀ j < n, co i j < c.length)
    (hinj : ∀ i < m, ∀ j < n, ∀ i' < m, ∀ j' < n, co i j = co i' j' → i = i' ∧ j = j') :
    ∃ c', gemmG m n k A a B b beta c co = .ok c' ∧ c'.length = c.length ∧
      (∀ i < m, ∀ j < n, c'[co i j]? =
        some (beta * c.getD (co i j) 0 + ∑ t ∈ range k, A.getD (a i t) 0 * B.getD (b t j) 0)) ∧
      ∀ p, (∀ i < m, ∀ j < n, co i j ≠ p) → c'[p]? = c[p]? := by
  refine forN_upd2 co (fun i j => beta * c.getD (co i j) 0 + ∑ t ∈ range k, A.getD (a i t) 0 * B.getD (b t j) 0) hin hinj ?_
  intro i hi j hj d hd he
  rw [forN_sum (fun t => A.getD (a i t) 0 * B.getD (b t j) 0), bind_ok, zero_add,
    rd_getD 0 (show co i j < d.length by rw [hd]; exact hin i hi j hj), bind_ok]
  · rw [List.getD_eq_getElem?_getD, he, ← List.getD_eq_getElem?_getD]
  · intro t ht s
    rw [rd_getD 0 (hA i hi t ht), rd_getD 0 (hB t ht j hj)]; rfl

theorem row_inj {n i j i' j' : Nat} (hj : j < n) (hj' : j' < n) (h : i * n + j = i' * n + j') : i = i' ∧ j = j' := by
  have e1 := congrArg (· % n) h
  have e2 := congrArg (· / n) h
  simp only [cm_mod hj, cm_mod hj', cm_div hj, cm_div hj'] at e1 e2
  exact ⟨e2, e1⟩

/-- Column-major product with transposed first factor into a full `m × n` buffer. -/
theorem gemmColTN_ok {m n k ao lda bo ldb : Nat} {A B : List K} {beta : K} {g : Nat → Nat → K} (hm : 0 < m)
    (hla : max 1 k ≤ lda) (hlb : max 1 k ≤ ldb)
    (hA : ∀ i < m, ∀ t < k, ao + (i * lda + t) < A.length) (hB : ∀ t < k, ∀ j < n, bo + (j * ldb + t) < B.length) :
    gemmColTN m n k A ao lda B bo ldb beta (cm m n g) m =
      .ok (cm m n (fun i j => beta * g i j +
        ∑ t ∈ range k, A.getD (ao + (i * lda + t)) 0 * B.getD (bo + (j * ldb + t)) 0)) := by
  rw [gemmColTN, blasArg_of (by simp only [Bool.and_eq_true, decide_eq_true_eq]; omega), bind_ok]
  obtain ⟨c', h1, h2, h3, -⟩ := gemmG_ok (m := m) (n := n) (k := k) (A := A) (B := B) (c := cm m n g)
    (a := fun i t => ao + (i * lda + t)) (b := fun t j => bo + (j * ldb + t)) (co := fun i j => j * m + i) (beta := beta)
    hA hB (fun i hi j hj => by rw [cm_length]; exact cm_idx_lt hi hj)
    (fun i hi j hj i' hi' j' hj' e => (row_inj hi hi' e).symm)
  rw [h1]; congr 1
  apply ext_cm (n := m) (m := n) (by rw [h2, cm_length]) (by simp)
  intro i hi j hj
  rw [h3 i hi j hj, cm_getElem? _ hi hj, getD_cm g 0 hi hj]

/-- Row-major product with transposed second factor into a full row-major `m × n` buffer (stored as the column-major
`n × m` buffer). -/
theorem gemmRowNT_ok {m n k ao lda bo ldb : Nat} {A B : List K} {beta : K} {g : Nat → Nat → K} (hn : 0 < n)
    (hla : max 1 k ≤ lda) (hlb : max 1 k ≤ ldb)
    (hA : ∀ i < m, ∀ t < k, ao + (i * lda + t) < A.length) (hB : ∀ t < k, ∀ j < n, bo + (j * ldb + t) < B.length) :
    gemmRowNT m n k A ao lda B bo ldb beta (cm n m g) n =
      .ok (cm n m (fun j i => beta * g j i +
        ∑ t ∈ range k, A.getD (ao + (i * lda + t)) 0 * B.getD (bo + (j * ldb + t)) 0)) := by
  rw [gemmRowNT, blasArg_of (by simp only [Bool.and_eq_true, decide_eq_true_eq]; omega), bind_ok]
  obtain ⟨c', h1, h2, h3, -⟩ := gemmG_ok (m := m) (n := n) (k := k) (A := A) (B := B) (c := cm n m g)
    (a := fun i t => ao + (i * lda + t)) (b := fun t j => bo + (j * ldb + t)) (co := fun i j => i * n + j) (beta := beta)
    hA hB (fun i hi j hj => by rw [cm_length]; exact cm_idx_lt hj hi)
    (fun i hi j hj i' hi' j' hj' e => row_inj hj hj' e)
  rw [h1]; congr 1
  apply ext_cm (n := n) (m := m) (by rw [h2, cm_length]) (by simp)
  intro j hj i hi
  rw [h3 i hi j hj, cm_getElem? _ hj hi, getD_cm g 0 hj hi]

end C3

/-
Algebra of function trains (lib_clinalg/ft.c, lib_clinalg/qmarray.c): sum, product, scaling, and the BLAS-like routines.
Arrays of pointers are `List (Option _)` while they are filled; deep copies of univariate functions are the identity;
memory release is modelled only where a caller can observe it.
-/
import Verif.Core.Fill
import Verif.Ft.Spec

namespace C3.Ft
variable {K U X : Type} [Field K]

/-- Operations on univariate functions used by the function-train layer. `scale a f` is
`generic_function_daxpby(a,f,0.0,NULL)`, `prod` is `generic_function_prod`; both may abort. -/
structure Ops (K U : Type) where
  scale : K → U → C U
  prod : U → U → C U

/-- qmarray.c:3203-3218 `qmarray_stackh`. -/
def stackh (a b : Qma U) : C (Qma U) := do
  cassert (decide (a.nrows = b.nrows))
  let c ← forN (a.nrows * a.ncols) (fun ii c => do
    let f ← rd a.funcs ii
    wr c ii (some f)) (List.replicate (a.nrows * (a.ncols + b.ncols)) none)
  let c ← forN (b.nrows * b.ncols) (fun ii c => do
    let f ← rd b.funcs ii
    wr c (ii + a.nrows * a.ncols) (some f)) c
  let fs ← allSome c
  pure ⟨a.nrows, a.ncols + b.ncols, fs⟩

/-- qmarray.c:3227-3247 `qmarray_stackv`. -/
def stackv (a b : Qma U) : C (Qma U) := do
  cassert (decide (a.ncols = b.ncols))
  let c ← forN a.ncols (fun jj c => do
    let c ← forN a.nrows (fun ii c => do
      let f ← rd a.funcs (jj * a.nrows + ii)
      wr c (jj * (a.nrows + b.nrows) + ii) (some f)) c
    forN b.nrows (fun ii c => do
      let f ← rd b.funcs (jj * b.nrows + ii)
      wr c (jj * (a.nrows + b.nrows) + ii + a.nrows) (some f)) c)
    (List.replicate ((a.nrows + b.nrows) * a.ncols) none)
  let fs ← allSome c
  pure ⟨a.nrows + b.nrows, a.ncols, fs⟩

/-- qmarray.c:3256-3283 `qmarray_blockdiag`. -/
def blockdiag (o : Ops K U) (a b : Qma U) : C (Qma U) := do
  let c ← forN a.ncols (fun jj c => do
    let c ← forN a.nrows (fun ii c => do
      let f ← rd a.funcs (jj * a.nrows + ii)
      wr c (jj * (a.nrows + b.nrows) + ii) (some f)) c
    forN b.nrows (fun ii c => do
      let f ← rd a.funcs 0
      let z ← o.scale 0 f
      wr c (jj * (a.nrows + b.nrows) + ii + a.nrows) (some z)) c)
    (List.replicate ((a.nrows + b.nrows) * (a.ncols + b.ncols)) none)
  let c ← forR a.ncols (a.ncols + b.ncols) (fun jj c => do
    let c ← forN a.nrows (fun ii c => do
      let f ← rd a.funcs 0
      let z ← o.scale 0 f
      wr c (jj * (a.nrows + b.nrows) + ii) (some z)) c
    forN b.nrows (fun ii c => do
      let f ← rd b.funcs ((jj - a.ncols) * b.nrows + ii)
      wr c (jj * (a.nrows + b.nrows) + ii + a.nrows) (some f)) c) c
  let fs ← allSome c
  pure ⟨a.nrows + b.nrows, a.ncols + b.ncols, fs⟩

/-- qmarray.c:1113-1137 `qmarray_kron`. -/
def kron (o : Ops K U) (a b : Qma U) : C (Qma U) := do
  let c ← forN a.ncols (fun ii => forN a.nrows (fun jj => forN b.ncols (fun kk => forN b.nrows (fun ll c => do
    let f ← rd a.funcs (ii * a.nrows + jj)
    let g ← rd b.funcs (kk * b.nrows + ll)
    let h ← o.prod f g
    wr c ((ii * b.ncols + kk) * (a.nrows * b.nrows) + (jj * b.nrows + ll)) (some h)))))
    (List.replicate ((a.nrows * b.nrows) * (a.ncols * b.ncols)) none)
  let fs ← allSome c
  pure ⟨a.nrows * b.nrows, a.ncols * b.ncols, fs⟩

/-- qmarray.c:3181-3193 `qmarray_transpose`. -/
def transpose (a : Qma U) : C (Qma U) := do
  let c ← forN a.nrows (fun ii => forN a.ncols (fun jj c => do
    let f ← rd a.funcs (jj * a.nrows + ii)
    wr c (ii * a.ncols + jj) (some f))) (List.replicate (a.ncols * a.nrows) none)
  let fs ← allSome c
  pure ⟨a.ncols, a.nrows, fs⟩

/-- A train under construction (ft.c:171-199 `function_train_alloc`: ranks zero, cores NULL). -/
structure Bld (U : Type) where
  ranks : List Nat
  cores : List (Option (Qma U))

def ftAlloc (dim : Nat) : Bld U := ⟨List.replicate (dim + 1) 0, List.replicate dim none⟩

/-- Hand over a train under construction; a core never set is a NULL pointer. -/
def ftDone (dim : Nat) (ranks : List Nat) (cores : List (Option (Qma U))) : C (FT K U) := do
  let cs ← allSome cores
  pure ⟨dim, ranks, cs, none, none, none⟩

/-- ft.c:208-223 `function_train_copy` (the copy starts without scratch spaces). -/
def ftCopy (a : FT K U) : C (FT K U) := do
  let rk ← forN a.dim (fun ii rk => do
    let r ← rd a.ranks ii
    wr rk ii r) (List.replicate (a.dim + 1) 0)
  let cs ← forN a.dim (fun ii cs => do
    let Q ← rd a.cores ii
    wr cs ii (some Q)) (List.replicate a.dim none)
  let r ← rd a.ranks a.dim
  let rk ← wr rk a.dim r
  ftDone a.dim rk cs

/-- ft.c:2847-2871 `function_train_sum`. The rank and core arrays are filled by separate loops here. -/
def ftSum (o : Ops K U) (a b : FT K U) : C (FT K U) := do
  let A ← rd a.cores 0
  let B ← rd b.cores 0
  let Q ← stackh A B
  let cs ← wr (List.replicate a.dim none) 0 (some Q)
  let r ← rd a.ranks 0
  let rk ← wr (List.replicate (a.dim + 1) 0) 0 r
  let cs ← forR 1 (a.dim - 1) (fun ii cs => do
    let A ← rd a.cores ii
    let B ← rd b.cores ii
    let Q ← blockdiag o A B
    wr cs ii (some Q)) cs
  let rk ← forR 1 (a.dim - 1) (fun ii rk => do
    let ra ← rd a.ranks ii
    let rb ← rd b.ranks ii
    wr rk ii (ra + rb)) rk
  let ra ← rd a.ranks (a.dim - 1)
  let rb ← rd b.ranks (b.dim - 1)
  let rk ← wr rk (a.dim - 1) (ra + rb)
  let A ← rd a.cores (a.dim - 1)
  let B ← rd b.cores (b.dim - 1)
  let Q ← stackv A B
  let cs ← wr cs (a.dim - 1) (some Q)
  let r ← rd a.ranks a.dim
  let rk ← wr rk a.dim r
  ftDone a.dim rk cs

/-- ft.c:2878-2886 `function_train_scale` with functions.c `generic_function_array_daxpby(n,a,1,x,0.0,1,NULL)`. -/
def ftScale (o : Ops K U) (x : FT K U) (a : K) : C (FT K U) := do
  let Q ← rd x.cores 0
  let c ← forN (Q.nrows * Q.ncols) (fun ii c => do
    let f ← rd Q.funcs ii
    let g ← o.scale a f
    wr c ii (some g)) (List.replicate (Q.nrows * Q.ncols) none)
  let fs ← allSome c
  let cs ← wr x.cores 0 { Q with funcs := fs }
  pure { x with cores := cs }

/-- ft.c:2942-2956 `function_train_product`. -/
def ftProd (o : Ops K U) (a b : FT K U) : C (FT K U) := do
  let rk ← forN a.dim (fun ii rk => do
    let ra ← rd a.ranks ii
    let rb ← rd b.ranks ii
    wr rk ii (ra * rb)) (List.replicate (a.dim + 1) 0)
  let cs ← forN a.dim (fun ii cs => do
    let A ← rd a.cores ii
    let B ← rd b.cores ii
    let Q ← kron o A B
    wr cs ii (some Q)) (List.replicate a.dim none)
  let ra ← rd a.ranks a.dim
  let rb ← rd b.ranks a.dim
  let rk ← wr rk a.dim (ra * rb)
  ftDone a.dim rk cs

/-- ft.c:4556-4574 `c3axpy` for epsilon ≤ 0 (no rounding). -/
def c3axpy (o : Ops K U) (a : K) (x y : FT K U) : C (FT K U) := do
  let t ← ftCopy x
  let t ← ftScale o t a
  ftSum o t y

/-- A stored train; `none` is a NULL pointer. -/
def deref {α : Type} (p : Option α) : C α :=
  match p with
  | none => .error .null
  | some v => .ok v

/-- Element of an `FT1DArray`, dereferenced. -/
def ftAt (l : List (Option (FT K U))) (i : Nat) : C (FT K U) := do
  let p ← rd l i
  deref p

/-- ft.c:4653-4661 `c3vaxpy`, epsilon ≤ 0. -/
def c3vaxpy (o : Ops K U) (n : Nat) (a : K) (x : List (Option (FT K U))) (incx : Nat) (y : List (Option (FT K U)))
    (incy : Nat) : C (List (Option (FT K U))) :=
  forN n (fun ii y => do
    let xf ← ftAt x (ii * incx)
    let yf ← ftAt y (ii * incy)
    let z ← c3axpy o a xf yf
    wr y (ii * incy) (some z)) y

/-- ft.c:4669-4684 `c3vaxpy_arr`, epsilon ≤ 0: `z ← alpha Σ y[incy i] x[i incx] + beta z`; `y` is the part of the
coefficient array starting at the pointer passed. -/
def c3vaxpyArr (o : Ops K U) (n : Nat) (alpha : K) (x : List (Option (FT K U))) (incx : Nat) (y : List K) (incy : Nat)
    (beta : K) (z : Option (FT K U)) : C (FT K U) := do
  cassert z.isSome
  let z ← deref z
  let z ← ftScale o z beta
  forN n (fun ii z => do
    let c ← rd y (incy * ii)
    let xf ← ftAt x (ii * incx)
    c3axpy o (alpha * c) xf z) z

/-- ft.c:4694-4733 `c3vprodsum`, epsilon ≤ 0. -/
def c3vprodsum (o : Ops K U) (n : Nat) (a : K) (x : List (Option (FT K U))) (incx : Nat) (y : List (Option (FT K U)))
    (incy : Nat) (beta : K) (z : Option (FT K U)) : C (FT K U) := do
  cassert z.isSome
  let z ← deref z
  let z ← ftScale o z beta
  let x0 ← ftAt x 0
  let y0 ← ftAt y 0
  let run ← ftProd o x0 y0
  let run ← forR 1 n (fun ii run => do
    let xf ← ftAt x (ii * incx)
    let yf ← ftAt y (ii * incy)
    let t ← ftProd o xf yf
    c3axpy o 1 t run) run
  c3axpy o a run z

/-- ft.c `ft1d_array_scale(fta,N,inc,scale)`: scales the entries `0, inc, 2 inc, ..`. -/
def ft1dScale (o : Ops K U) (y : List (Option (FT K U))) (N inc : Nat) (a : K) : C (List (Option (FT K U))) :=
  forN N (fun ii y => do
    let f ← ftAt y (ii * inc)
    let g ← ftScale o f a
    wr y (ii * inc) (some g)) y

/-- ft.c:4743-4762 `c3vgemv`, epsilon ≤ 0: `run` is an array of NULL trains (`ft1d_array_alloc(m)`). -/
def c3vgemv (o : Ops K U) (m n : Nat) (alpha : K) (A : List (Option (FT K U))) (lda : Nat) (x : List (Option (FT K U)))
    (incx : Nat) (beta : K) (y : List (Option (FT K U))) (incy : Nat) : C (List (Option (FT K U))) := do
  let y ← ft1dScale o y m incy beta
  let run ← forN m (fun ii run => do
    let z ← rd run (ii * incy)
    let r ← c3vprodsum o n 1 (A.drop ii) lda x incx 0 z
    wr run (ii * incy) (some r)) (List.replicate m none)
  c3vaxpy o m alpha run 1 y incy

/-- ft.c:4774-4795 `c3vgemv_arr`, epsilon ≤ 0. -/
def c3vgemvArr (o : Ops K U) (trans : Int) (m n : Nat) (alpha : K) (A : List K) (lda : Nat) (B : List (Option (FT K U)))
    (incb : Nat) (beta : K) (y : List (Option (FT K U))) (incy : Nat) : C (List (Option (FT K U))) := do
  let y ← ft1dScale o y m incy beta
  if trans = 0 then
    forN m (fun ii y => do
      let z ← rd y (ii * incy)
      let r ← c3vaxpyArr o n alpha B incb (A.drop ii) lda beta z
      wr y (ii * incy) (some r)) y
  else if trans = 1 then
    forN m (fun ii y => do
      let z ← rd y (ii * incy)
      let r ← c3vaxpyArr o n alpha B incb (A.drop (ii * lda)) 1 beta z
      wr y (ii * incy) (some r)) y
  else pure y

end C3.Ft

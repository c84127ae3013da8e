/-
Discrete tensors and tensor trains (c3/lib_tensor/tensor.c, c3/lib_tensdecomp/tensortrain.c, tt_multilinalg.c,
tt_integrate.c) and the helpers they use from c3/lib_linalg/linalg.c.

Numbers are exact elements of a commutative ring; storage is column-major as in the code; every access is bounds-checked.
-/
import Verif.Core.Blas
import Verif.Core.Fill

namespace C3.Tt
variable {K : Type} [CommRing K]

/-- `memmove(dst+doff, src+soff, n*sizeof(double))` between different buffers. -/
def blit {α : Type} (n : Nat) (dst : List α) (doff : Nat) (src : List α) (soff : Nat) : C (List α) :=
  forN n (fun i d => do
    let v ← rd src (soff + i)
    wr d (doff + i) v) dst

/-- `struct tensor` (c3/lib_tensor/tensor.h): sizes per dimension and values. -/
structure Tensor (K : Type) where
  dim : Nat
  nvals : List Nat
  vals : List K
  deriving DecidableEq

/-- c3/lib_tensor/tensor.c:86-97 `tensor_elem`: the running position and multiplier. -/
def tensorElem (t : Tensor K) (elem : List Nat) : C K := do
  let e0 ← rd elem 0
  let n0 ← rd t.nvals 0
  let st ← forR 1 t.dim (fun ii (st : Nat × Nat) => do
    let e ← rd elem ii
    let n ← rd t.nvals ii
    pure (st.1 + e * st.2, st.2 * n)) (e0, n0)
  rd t.vals st.1

/-- A 3-dimensional `struct tensor`, `nvals = {n0,n1,n2}`. -/
structure T3 (K : Type) where
  n0 : Nat
  n1 : Nat
  n2 : Nat
  vals : List K
  deriving DecidableEq

/-- c3/lib_tensor/tensor.c:59-74 `init_tensor` for three dimensions (values zeroed by `calloc`). -/
def initT3 (n0 n1 n2 : Nat) : T3 K := ⟨n0, n1, n2, List.replicate (n0 * n1 * n2) 0⟩

/-- c3/lib_tensor/tensor.c:236-252 `tensor_stack2h_3d`. -/
def stack2h (a b : T3 K) : C (T3 K) := do
  let core : T3 K := initT3 a.n0 a.n1 (a.n2 + b.n2)
  let v ← blit (a.n0 * a.n1 * a.n2) core.vals 0 a.vals 0
  let v ← blit (a.n0 * a.n1 * b.n2) v (a.n0 * a.n1 * a.n2) b.vals 0
  pure ⟨a.n0, a.n1, a.n2 + b.n2, v⟩

/-- c3/lib_tensor/tensor.c:267-291 `tensor_stack2v_3d`. -/
def stack2v (a b : T3 K) : C (T3 K) := do
  let N0 := a.n0 + b.n0
  let core : T3 K := initT3 N0 a.n1 a.n2
  let v ← forN a.n1 (fun ii => forN a.n2 (fun jj v => do
    let v ← blit a.n0 v (ii * N0 + jj * N0 * a.n1) a.vals (ii * a.n0 + jj * a.n0 * a.n1)
    blit b.n0 v (a.n0 + ii * N0 + jj * N0 * a.n1) b.vals (ii * b.n0 + jj * b.n0 * a.n1))) core.vals
  pure ⟨N0, a.n1, a.n2, v⟩

/-- c3/lib_tensor/tensor.c:306-332 `tensor_blockdiag_3d`. -/
def blockdiag (a b : T3 K) : C (T3 K) := do
  let ur : T3 K := initT3 a.n0 a.n1 b.n2
  let ll : T3 K := initT3 b.n0 b.n1 a.n2
  let up ← stack2h a ur
  let down ← stack2h ll b
  stack2v up down

/-- c3/lib_tensor/tensor.c:378-392 `tensor_ones_3d`. -/
def ones3 (rankl n rankr : Nat) : C (T3 K) := do
  let core : T3 K := initT3 rankl n rankr
  let v ← forN (rankl * n * rankr) (fun ii v => wr v ii 1) core.vals
  pure ⟨rankl, n, rankr, v⟩

/-- c3/lib_tensor/tensor.c:394-405 `tensor_x_3d`. -/
def x3 (n : Nat) (x : List K) : C (T3 K) := do
  let core : T3 K := initT3 1 n 1
  let v ← blit n core.vals 0 x 0
  pure ⟨1, n, 1, v⟩

/-- c3/lib_tensor/tensor.c:412-427 `tensor_sum2`. -/
def sum2 (t : T3 K) (b : List K) : C (List K) :=
  forN t.n1 (fun ii => forN t.n2 (fun jj => forN t.n0 (fun kk out => do
    let w ← rd b ii
    let v ← rd t.vals (kk + ii * t.n0 + jj * t.n0 * t.n1)
    let old ← rd out (jj * t.n0 + kk)
    wr out (jj * t.n0 + kk) (old + w * v)))) (List.replicate (t.n0 * t.n2) 0)

/-- c3/lib_linalg/linalg.c:618-637 `kron_col`; `ao`, `bo`, `oo` are the offsets of the pointers passed (`int` indices
taken as exact). -/
def kronCol (n m : Nat) (a : List K) (ao lda k l : Nat) (b : List K) (bo ldb : Nat) (out : List K) (oo ldc : Nat) :
    C (List K) :=
  forN n (fun ii => forN m (fun jj => forN k (fun kk => forN l (fun ll out => do
    let x ← rd a (ao + (jj * lda + ii))
    let y ← rd b (bo + (ll * ldb + kk))
    wr out (oo + ((jj * l + ll) * ldc + (ii * k + kk))) (x * y))))) out

/-- c3/lib_tensor/tensor.c:430-446 `tensor_kron_3d`. -/
def kron3 (a b : T3 K) : C (T3 K) := do
  let out : T3 K := initT3 (a.n0 * b.n0) a.n1 (a.n2 * b.n2)
  let v ← forN a.n1 (fun ii v =>
    kronCol a.n0 a.n2 a.vals (ii * a.n0) (a.n0 * a.n1) b.n0 b.n2 b.vals (ii * b.n0) (b.n0 * b.n1)
      v (ii * (a.n0 * b.n0)) (a.n0 * b.n0 * a.n1)) out.vals
  pure ⟨a.n0 * b.n0, a.n1, a.n2 * b.n2, v⟩

/-- c3/lib_tensor/tensor.c:461-485 `tensor_copy_3d`. The transposed copy is created with the sizes of the argument
(line 474), not with the exchanged ones. -/
def copy3 (t : T3 K) (transpose : Bool) : C (T3 K) :=
  if transpose then do
    let out : T3 K := initT3 t.n0 t.n1 t.n2
    let v ← forN t.n2 (fun ii => forN t.n1 (fun jj => forN t.n0 (fun kk v => do
      let x ← rd t.vals (kk + jj * t.n0 + ii * t.n1 * t.n0)
      wr v (ii + jj * t.n2 + kk * t.n2 * t.n1) x))) out.vals
    pure ⟨t.n0, t.n1, t.n2, v⟩
  else do
    let out : T3 K := initT3 t.n0 t.n1 t.n2
    let v ← blit (t.n0 * t.n1 * t.n2) out.vals 0 t.vals 0
    pure ⟨t.n0, t.n1, t.n2, v⟩

/-- `struct tt` (c3/lib_tensdecomp/tensortrain.h:51-56). -/
structure TT (K : Type) where
  dim : Nat
  nvals : List Nat
  ranks : List Nat
  cores : List (T3 K)
  deriving DecidableEq

/-- c3/lib_tensdecomp/tensortrain.c:62-80 `init_tt_alloc`: the rank array (`ranks[0] = 1`, others 0) and the sizes copied
from the argument; the core array is modelled by `none` entries. -/
def initRanks (dim : Nat) : C (List Nat) := wr (List.replicate (dim + 1) 0) 0 1

/-- The first `dim` sizes copied. -/
def initNvals (dim : Nat) (nvals : List Nat) : C (List Nat) := blit dim (List.replicate dim 0) 0 nvals 0

/-- c3/lib_tensdecomp/tensortrain.c:92-103 `copy_tt`. -/
def copyTt (a : TT K) : C (TT K) := do
  let rk ← initRanks a.dim
  let nv ← initNvals a.dim a.nvals
  let rk ← blit (a.dim + 1) rk 0 a.ranks 0
  let cs ← forN a.dim (fun ii cs => do
    let Q ← rd a.cores ii
    let Q' ← copy3 Q false
    wr cs ii (some Q')) (List.replicate a.dim none)
  let cs ← allSome cs
  pure ⟨a.dim, nv, rk, cs⟩

/-- c3/lib_tensdecomp/tensortrain.c:139-152 `tt_ones`. -/
def ttOnes (dim : Nat) (nvals : List Nat) : C (TT K) := do
  let rk ← initRanks dim
  let nv ← initNvals dim nvals
  let rk ← forN dim (fun ii rk => wr rk ii 1) rk
  let cs ← forN dim (fun ii cs => do
    let n ← rd nvals ii
    let Q ← ones3 (K := K) 1 n 1
    wr cs ii (some Q)) (List.replicate dim none)
  let rk ← wr rk dim 1
  let cs ← allSome cs
  pure ⟨dim, nv, rk, cs⟩

/-- c3/lib_tensdecomp/tensortrain.c:155-178 `tt_x`. The constant cores are created with sizes `1,1,nvals[ii]`. -/
def ttX (x : List K) (dimx dim : Nat) (nvals : List Nat) : C (TT K) := do
  let rk ← initRanks dim
  let nv ← initNvals dim nvals
  let rk ← forN dimx (fun ii rk => wr rk ii 1) rk
  let cs ← forN dimx (fun ii cs => do
    let n ← rd nvals ii
    let Q ← ones3 (K := K) 1 1 n
    wr cs ii (some Q)) (List.replicate dim none)
  let rk ← wr rk dimx 1
  let n ← rd nvals dimx
  let Q ← x3 n x
  let cs ← wr cs dimx (some Q)
  let rk ← forR (dimx + 1) dim (fun ii rk => wr rk ii 1) rk
  let cs ← forR (dimx + 1) dim (fun ii cs => do
    let n ← rd nvals ii
    let Q ← ones3 (K := K) 1 1 n
    wr cs ii (some Q)) cs
  let rk ← wr rk dim 1
  let cs ← allSome cs
  pure ⟨dim, nv, rk, cs⟩

/-- One step of the loop of `ttelem` (lines 193-204): the leading dimension uses `nvals[1]` for every core. -/
def ttelemStep (t : TT K) (elem : List Nat) (ii : Nat) (vec : List K) : C (List K) := do
  let r2 ← rd t.ranks (ii + 2)
  let r1 ← rd t.ranks (ii + 1)
  let n1 ← rd t.nvals 1
  let e ← rd elem (ii + 1)
  let Q ← rd t.cores (ii + 1)
  gemvT r1 r2 Q.vals (e * r1) (r1 * n1) vec 0 1 (List.replicate r2 0)

/-- c3/lib_tensdecomp/tensortrain.c:180-211 `ttelem`. `ttc->dim-1` is computed in `size_t` (wraps for dimension 0). -/
def ttelem (t : TT K) (elem : List Nat) : C K := do
  let r2 ← rd t.ranks 2
  let r1 ← rd t.ranks 1
  let r0 ← rd t.ranks 0
  let Q1 ← rd t.cores 1
  let Q0 ← rd t.cores 0
  let e1 ← rd elem 1
  let e0 ← rd elem 0
  let n1 ← rd t.nvals 1
  let n0 ← rd t.nvals 0
  let vec ← gemvT r1 r2 Q1.vals (e1 * r1) (r1 * n1) Q0.vals (e0 * r0) (r0 * n0) (List.replicate r2 0)
  let vec ← forR 1 (t.dim - 1) (ttelemStep t elem) vec
  rd vec 0

/-- c3/lib_tensdecomp/tt_multilinalg.c:175-181 `ttscal`. -/
def ttscal (t : TT K) (scal : K) : C (TT K) := do
  let Q ← rd t.cores 0
  let v ← forN (Q.n0 * Q.n1 * Q.n2) (fun i v => do
    let x ← rd v i
    wr v i (scal * x)) Q.vals
  let cs ← wr t.cores 0 ⟨Q.n0, Q.n1, Q.n2, v⟩
  pure ⟨t.dim, t.nvals, t.ranks, cs⟩

/-- c3/lib_tensdecomp/tt_multilinalg.c:189-203 `ttmult`. -/
def ttmult (a b : TT K) : C (TT K) := do
  let rk ← initRanks a.dim
  let nv ← initNvals a.dim a.nvals
  let rk ← forN a.dim (fun ii rk => do
    let ra ← rd a.ranks ii
    let rb ← rd b.ranks ii
    wr rk ii (ra * rb)) rk
  let cs ← forN a.dim (fun ii cs => do
    let A ← rd a.cores ii
    let B ← rd b.cores ii
    let Q ← kron3 A B
    wr cs ii (some Q)) (List.replicate a.dim none)
  let ra ← rd a.ranks a.dim
  let rb ← rd b.ranks a.dim
  let rk ← wr rk a.dim (ra * rb)
  let cs ← allSome cs
  pure ⟨a.dim, nv, rk, cs⟩

/-- c3/lib_tensdecomp/tt_multilinalg.c:221-243 `ttadd`. -/
def ttadd (a b : TT K) : C (TT K) := do
  let rk ← initRanks a.dim
  let nv ← initNvals a.dim a.nvals
  let A0 ← rd a.cores 0
  let B0 ← rd b.cores 0
  let Q0 ← stack2h A0 B0
  let cs ← wr (List.replicate a.dim none) 0 (some Q0)
  let r0 ← rd a.ranks 0
  let rk ← wr rk 0 r0
  let cs ← forR 1 (a.dim - 1) (fun ii cs => do
    let A ← rd a.cores ii
    let B ← rd b.cores ii
    let Q ← blockdiag A B
    wr cs ii (some Q)) cs
  let rk ← forR 1 (a.dim - 1) (fun ii rk => do
    let ra ← rd a.ranks ii
    let rb ← rd b.ranks ii
    wr rk ii (ra + rb)) rk
  let ra ← rd a.ranks (a.dim - 1)
  let rb ← rd b.ranks (b.dim - 1)
  let rk ← wr rk (a.dim - 1) (ra + rb)
  let Al ← rd a.cores (a.dim - 1)
  let Bl ← rd b.cores (b.dim - 1)
  let Ql ← stack2v Al Bl
  let cs ← wr cs (a.dim - 1) (some Ql)
  let rl ← rd a.ranks a.dim
  let rk ← wr rk a.dim rl
  let cs ← allSome cs
  pure ⟨a.dim, nv, rk, cs⟩

/-- c3/lib_linalg/linalg.c:660-672 `vec_kron`: `out = v^T kron(A,B) + scale*out`. The leading dimension passed for `out`
is `n` (it has `l` columns). -/
def vecKron (m n : Nat) (a : List K) (ao lda k l : Nat) (b : List K) (bo ldb : Nat) (v : List K) (scale : K)
    (out : List K) : C (List K) := do
  let temp ← gemmRowNT l m k b bo ldb v 0 k 0 (List.replicate (m * l) 0) m
  gemmRowNT n l m a ao lda temp 0 m scale out n

/-- c3/lib_tensdecomp/tt_multilinalg.c:246-348 `tt_dot`. The two buffers of the code are used alternately; the one not
holding the current vector is `NULL`, so one loop state is enough. -/
def ttDot (a b : TT K) : C K := do
  let ra1 ← rd a.ranks 1
  let rb1 ← rd b.ranks 1
  let na0 ← rd a.nvals 0
  let A0 ← rd a.cores 0
  let B0 ← rd b.cores 0
  let nb0 ← rd b.nvals 0
  let v ← forN na0 (fun ii v =>
    gemmColTN rb1 ra1 1 B0.vals ii nb0 A0.vals ii na0 1 v rb1) (List.replicate (ra1 * rb1) 0)
  let v ← forR 1 a.dim (fun ii v => do
    let ra ← rd a.ranks ii
    let ra' ← rd a.ranks (ii + 1)
    let rb ← rd b.ranks ii
    let rb' ← rd b.ranks (ii + 1)
    let na ← rd a.nvals ii
    let A ← rd a.cores ii
    let B ← rd b.cores ii
    let nb ← rd b.nvals ii
    forN na (fun jj out =>
      vecKron ra ra' A.vals (jj * ra) (ra * na) rb rb' B.vals (jj * rb) (rb * nb) v 1 out)
      (List.replicate (ra' * rb') 0)) v
  rd v 0

/-- c3/lib_tensdecomp/tt_integrate.c:52-93 `tt_integrate` (two alternating buffers, as in `ttDot`). -/
def ttIntegrate (t : TT K) (weights : List (List K)) : C K := do
  let Q0 ← rd t.cores 0
  let w0 ← rd weights 0
  let v ← sum2 Q0 w0
  let v ← forR 1 t.dim (fun ii v => do
    let Q ← rd t.cores ii
    let w ← rd weights ii
    let vals ← sum2 Q w
    let r ← rd t.ranks ii
    let r' ← rd t.ranks (ii + 1)
    gemvT r r' vals 0 r v 0 1 (List.replicate r' 0)) v
  rd v 0

end C3.Tt

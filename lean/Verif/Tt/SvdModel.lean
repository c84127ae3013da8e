/-
Compression of full tensors and rounding of tensor trains (lib_tensdecomp/tensortrain.c `full_to_tt`, `right_ortho_core`,
`right_left_orth`, tt_multilinalg.c `tt_norm`, `tt_round`, with linalg.c `norm2`, `rq_with_rmult`, array.c `iprod_sz`,
matrix_util.c `diagv2m`). `truncated_svd` is modelled in Round/Model.lean. LAPACK's singular value decomposition and RQ
factorisation are arguments; numbers are exact reals, `size_t` products do not wrap.
-/
import Verif.Tt.Model
import Verif.Round.Model

namespace C3.Tt
open C3.Round

/-- array.c:417-423 `iprod_sz`. -/
def iprodSz (n : Nat) (xs : List Nat) : C Nat :=
  forN n (fun i p => do
    let x ← rd xs i
    pure (p * x)) 1

/-- linalg.c:470-481 `norm2` (the length is converted to `int`; exact here). -/
noncomputable def norm2 (v : List ℝ) (n : Nat) : C ℝ := do
  let s ← forN n (fun i s => do
    let x ← rd v i
    pure (s + x ^ 2)) 0
  pure (Real.sqrt s)

/-- matrix_util.c:100-117 `diagv2m`. -/
def diagM {K : Type} [CommRing K] (n : Nat) (s : List K) : C (List K) :=
  forN n (fun ii v => do
    let x ← rd s ii
    wr v (ii * n + ii) x) (List.replicate (n * n) 0)

/-- The tolerance of `full_to_tt` (tensortrain.c:231-233) and `tt_round` (tt_multilinalg.c:69-71). -/
noncomputable def tolOf (dim : Nat) (nrm eps : ℝ) : ℝ :=
  if 1 < dim then nrm * eps / Real.sqrt ((dim : ℝ) - 1) else nrm * eps

/-- Ranks and cores so far, the matrix still to be decomposed and its number of columns. -/
structure Fs where
  ranks : List Nat
  cores : List (Option (T3 ℝ))
  B : List ℝ
  nr : Nat

/-- tensortrain.c:271-302, the body of the loop; lines 234-268 are the same for `ii = 0`, where `ranks[0] = 1`. Division by a
size of zero is undefined behaviour. -/
noncomputable def fullStep (svd : Nat → Nat → List ℝ → C Svd) (nvals : List Nat) (delta : ℝ) (ii : Nat) (t : Fs) : C Fs := do
  let nl ← rd nvals ii
  if nl = 0 then .error .ub
  else do
    let nr := t.nr / nl
    let r ← rd t.ranks ii
    let w ← truncSvd svd (nl * r) nr t.B delta
    let rk ← wr t.ranks (ii + 1) w.rank
    let v ← blit (r * nl * w.rank) (List.replicate (r * nl * w.rank) 0) 0 w.u 0
    let cs ← wr t.cores ii (some ⟨r, nl, w.rank, v⟩)
    let sd ← diagM w.rank w.s
    let B ← dgemmNN w.rank nr w.rank sd w.rank w.vt w.rank (List.replicate (w.rank * nr) 0) w.rank
    pure ⟨rk, cs, B, nr⟩

/-- tensortrain.c:225-321 `full_to_tt`. -/
noncomputable def fullToTt (svd : Nat → Nat → List ℝ → C Svd) (a : Tensor ℝ) (eps : ℝ) : C (TT ℝ) := do
  let n ← iprodSz a.dim a.nvals
  let nrm ← norm2 a.vals n
  let delta := tolOf a.dim nrm eps
  let rk ← initRanks a.dim
  let nv ← initNvals a.dim a.nvals
  let B ← blit n (List.replicate n 0) 0 a.vals 0
  let t ← fullStep svd nv delta 0 ⟨rk, List.replicate a.dim none, B, n⟩
  let t ← forR 1 (a.dim - 1) (fullStep svd nv delta) t
  let rk ← wr t.ranks a.dim 1
  let r ← rd rk (a.dim - 1)
  let nl ← rd nv (a.dim - 1)
  let v ← blit (r * nl) (List.replicate (r * nl * 1) 0) 0 t.B 0
  let cs ← wr t.cores (a.dim - 1) (some ⟨r, nl, 1, v⟩)
  let cs ← allSome cs
  pure ⟨a.dim, nv, rk, cs⟩

/-- `cblas_dtrmm(CblasColMajor,CblasRight,CblasUpper,CblasNoTrans,CblasNonUnit,m,n,1.0,A+ao,lda,B,m)`: `B := B A` where only
the upper triangle of the `n × n` matrix `A` is read. -/
def trmmR {K : Type} [CommRing K] (m n : Nat) (A : List K) (ao lda : Nat) (B : List K) : C (List K) :=
  forN n (fun j => forN m (fun i b => do
    let v ← forN (j + 1) (fun t s => do
      let x ← rd B (t * m + i)
      let y ← rd A (ao + (j * lda + t))
      pure (s + x * y)) 0
    wr b (j * m + i) v)) B

/-- `cblas_dtrmm(CblasColMajor,CblasLeft,CblasUpper,CblasNoTrans,CblasNonUnit,m,n,1.0,A,lda,B,m)`: `B := A B` where only the
upper triangle of the `m × m` matrix `A` is read. -/
def trmmL {K : Type} [CommRing K] (m n : Nat) (A : List K) (lda : Nat) (B : List K) : C (List K) :=
  forN n (fun j => forN m (fun i b => do
    let v ← forN (m - i) (fun t s => do
      let x ← rd A ((i + t) * lda + i)
      let y ← rd B (j * m + (i + t))
      pure (s + x * y)) 0
    wr b (j * m + i) v)) B

/-- What LAPACK's `dgerqf` and then `dorgrq` leave in the `m × n` matrix. -/
structure Rq where
  f : List ℝ
  q : List ℝ

/-- linalg.c:219-263 `rq_with_rmult` with `lda = m`, `bm = bn = ldb = m`; returns the orthogonal factor and `b R`. For `m > n`
the address `a+(n-m)*m` wraps around. -/
noncomputable def rqMult (rq : Nat → Nat → List ℝ → C Rq) (m n : Nat) (a b : List ℝ) : C (List ℝ × List ℝ) := do
  let w ← rq m n a
  if n < m then .error .oob
  else do
    let b ← trmmR m m w.f ((n - m) * m) m b
    pure (w.q, b)

/-- tensortrain.c:334-353 `right_ortho_core`. -/
noncomputable def rightOrthoCore (rq : Nat → Nat → List ℝ → C Rq) (a : TT ℝ) (core : Nat) : C (TT ℝ) := do
  let r ← rd a.ranks core
  let id ← forN r (fun jj v => wr v (jj * r + jj) 1) (List.replicate (r * r) (0 : ℝ))
  let r' ← rd a.ranks (core + 1)
  let n ← rd a.nvals core
  let Q ← rd a.cores core
  let w ← rqMult rq r (r' * n) Q.vals id
  let cs ← wr a.cores core ⟨Q.n0, Q.n1, Q.n2, w.1⟩
  let rp ← rd a.ranks (core - 1)
  let np ← rd a.nvals (core - 1)
  let P ← rd cs (core - 1)
  let v ← trmmR (rp * np) r w.2 0 r P.vals
  let cs ← wr cs (core - 1) ⟨P.n0, P.n1, P.n2, v⟩
  pure ⟨a.dim, a.nvals, a.ranks, cs⟩

/-- tensortrain.c:365-370 `right_left_orth`. -/
noncomputable def rightLeftOrth (rq : Nat → Nat → List ℝ → C Rq) (a : TT ℝ) : C (TT ℝ) :=
  forN (a.dim - 1) (fun ii a => rightOrthoCore rq a (a.dim - ii - 1)) a

/-- tt_multilinalg.c:351-357 `tt_norm`. -/
noncomputable def ttNorm (a : TT ℝ) : C ℝ := do
  let v ← ttDot a a
  pure (Real.sqrt |v|)

/-- Ranks and cores of the result so far, and the factors `s`, `vt` of the last decomposition. -/
structure Rs where
  ranks : List Nat
  cores : List (Option (T3 ℝ))
  s : List ℝ
  vt : List ℝ

/-- tt_multilinalg.c:103-110, 118-123 (and 131-136, 151-155): `(diag(s) vt) core`. -/
noncomputable def roundMul (a : TT ℝ) (ii rb : Nat) (t : Rs) : C (List ℝ) := do
  let sd ← diagM rb t.s
  let ra ← rd a.ranks ii
  let vt ← trmmL rb ra sd rb t.vt
  let ra' ← rd a.ranks (ii + 1)
  let n ← rd a.nvals ii
  let Q ← rd a.cores ii
  dgemmNN rb (ra' * n) ra vt rb Q.vals ra (List.replicate (rb * ra' * n) 0) rb

/-- tt_multilinalg.c:125-128 (and 96-99): decompose a core and store the left factor. -/
noncomputable def roundCut (svd : Nat → Nat → List ℝ → C Svd) (a : TT ℝ) (delta : ℝ) (ii rb : Nat) (v : List ℝ) (t : Rs) :
    C Rs := do
  let n ← rd a.nvals ii
  let ra' ← rd a.ranks (ii + 1)
  let w ← truncSvd svd (n * rb) ra' v delta
  let rk ← wr t.ranks (ii + 1) w.rank
  let cs ← wr t.cores ii (some ⟨rb, n, w.rank, w.u⟩)
  pure ⟨rk, cs, w.s, w.vt⟩

/-- tt_multilinalg.c:102-130, the body of the loop. -/
noncomputable def roundStep (svd : Nat → Nat → List ℝ → C Svd) (a : TT ℝ) (delta : ℝ) (ii : Nat) (t : Rs) : C Rs := do
  let rb ← rd t.ranks ii
  let v ← roundMul a ii rb t
  roundCut svd a delta ii rb v t

/-- tt_multilinalg.c:66-159 `tt_round`. The field `dim` of the cores of the result is never set in C; it is not modelled (cores have
three indices here). -/
noncomputable def ttRound (svd : Nat → Nat → List ℝ → C Svd) (rq : Nat → Nat → List ℝ → C Rq) (a : TT ℝ) (eps : ℝ) :
    C (TT ℝ) := do
  let nrm ← ttNorm a
  let delta := tolOf a.dim nrm eps
  let a ← rightLeftOrth rq a
  let rk ← initRanks a.dim
  let nv ← initNvals a.dim a.nvals
  let r0 ← rd a.ranks 0
  let rk ← wr rk 0 r0
  let rl ← rd a.ranks a.dim
  let rk ← wr rk a.dim rl
  let Q ← rd a.cores 0
  let t ← roundCut svd a delta 0 r0 Q.vals ⟨rk, List.replicate a.dim none, [], []⟩
  let t ← forR 1 (a.dim - 1) (roundStep svd a delta) t
  let rb ← rd t.ranks (a.dim - 1)
  let n ← rd a.nvals (a.dim - 1)
  let v ← roundMul a (a.dim - 1) rb t
  let cs ← wr t.cores (a.dim - 1) (some ⟨rb, n, rl, v⟩)
  let rk ← wr t.ranks a.dim rl
  let cs ← allSome cs
  pure ⟨a.dim, nv, rk, cs⟩

end C3.Tt

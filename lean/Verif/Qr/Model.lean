/-
QR, LQ and LU factorizations of quasimatrices and of arrays of univariate functions
(c3/lib_clinalg/quasimatrix.c, c3/lib_clinalg/qmarray.c, c3/lib_funcs/functions.c).

A univariate function is an element of a real inner product space `E`: `generic_function_inner` is the inner product and
`generic_function_scale`, `axpy`, `daxpby` are exact; function classes agree, so the status codes are 0. An array of functions is a list
addressed by positions `p : Nat → Nat` (C: a base pointer plus stride). The thresholds `ZERO`, `ZEROTHRESH` are the argument `thr`.
-/
import Verif.Core.Mem
import Verif.Lin.Model
import Mathlib.Analysis.InnerProductSpace.Basic
import Mathlib.Analysis.Real.Sqrt

namespace C3.Qr
open C3.Lin (dv)

variable {E : Type} [NormedAddCommGroup E] [InnerProductSpace ℝ E]

/-- functions.c:1755-1766 `generic_function_inner_sum`. -/
noncomputable def innerSum (n : Nat) (p : Nat → Nat) (a : List E) (q : Nat → Nat) (b : List E) : C ℝ :=
  forN n (fun ii val => do
    let x ← rd a (p ii)
    let y ← rd b (q ii)
    pure (val + inner ℝ x y)) 0

/-- functions.c:1710-1722 `generic_function_norm` (the check for a negative square never fires for an inner product). -/
noncomputable def fnorm (x : E) : ℝ := Real.sqrt (inner ℝ x x)

/-- functions.c:1887-1900 `generic_function_array_norm`. -/
noncomputable def arrNorm (n : Nat) (p : Nat → Nat) (a : List E) : C ℝ := do
  let val ← forN n (fun ii val => do
    let x ← rd a (p ii)
    pure (val + fnorm x ^ 2)) 0
  pure (Real.sqrt val)

/-- functions.c:1119-1126 `generic_function_array_flip_sign`. -/
def flip (n : Nat) (p : Nat → Nat) (a : List E) : C (List E) :=
  forN n (fun ii a => do
    let x ← rd a (p ii)
    wr a (p ii) (-x)) a

/-- functions.c:1233-1240 `generic_function_array_scale` (and the explicit strided loops in `qmarray_lq`, `qmarray_lq_gs`). -/
def scale (n : Nat) (c : ℝ) (p : Nat → Nat) (a : List E) : C (List E) :=
  forN n (fun ii a => do
    let x ← rd a (p ii)
    wr a (p ii) (c • x)) a

/-- functions.c:1194-1213 `generic_function_array_axpy` (and the explicit strided loops): `y ← c x + y`, `x` another array. -/
def axpy (n : Nat) (c : ℝ) (p : Nat → Nat) (x : List E) (q : Nat → Nat) (y : List E) : C (List E) :=
  forN n (fun ii y => do
    let a ← rd x (p ii)
    let b ← rd y (q ii)
    wr y (q ii) (c • a + b)) y

/-- The same when `x` and `y` are parts of one array. -/
def axpyIn (n : Nat) (c : ℝ) (p q : Nat → Nat) (y : List E) : C (List E) :=
  forN n (fun ii y => do
    let a ← rd y (p ii)
    let b ← rd y (q ii)
    wr y (q ii) (c • a + b)) y

/-- functions.c:841-872 `generic_function_array_daxpby` with both arrays given: a new array of `n` functions. -/
def daxpby (n : Nat) (c : ℝ) (p : Nat → Nat) (x : List E) (d : ℝ) (q : Nat → Nat) (y : List E) : C (List E) :=
  forN n (fun ii z => do
    let a ← rd x (p ii)
    let b ← rd y (q ii)
    wr z ii (c • a + d • b)) (List.replicate n 0)

/-- functions.c:841-872 with `y == NULL`, quasimatrix.c:`quasimatrix_daxpby` with `y == NULL`. -/
def daxpby1 (n : Nat) (c : ℝ) (p : Nat → Nat) (x : List E) : C (List E) :=
  forN n (fun ii z => do
    let a ← rd x (p ii)
    wr z ii (c • a)) (List.replicate n 0)

/-- qmarray.c `qmarray_set_column`, `qmarray_set_row`, `qmarray_set_column_gf`: copies of the functions of `v` are stored. -/
def setVec (n : Nat) (q : Nat → Nat) (v a : List E) : C (List E) :=
  forN n (fun ii a => do
    let x ← rd v ii
    wr a (q ii) x) a

/-- Positions of a block of its own. -/
def idp : Nat → Nat := fun i => i

/-- The arrays a sweep works on. -/
structure HS (E : Type) where
  A : List E
  Q : List E
  V : List E
  R : List ℝ

/-- qmarray.c:3896-3906 (columns), 4056-4065 (rows): sign of the starting vector; `-alpha/fabs(alpha)` is 0/0 only when `alpha` is zero. -/
noncomputable def signFix (thr : ℝ) (len : Nat) (p : Nat → Nat) (alpha : ℝ) (Q : List E) : C (List E) :=
  if |alpha| < thr then .ok Q
  else do
    let s ← dv (-alpha) |alpha|
    if s < 0 then flip len p Q else .ok Q

/-- qmarray.c:3910-3915, 4067-4072: `V ← rho Q - A` (`generic_function_weighted_sum_pa`). -/
def wsum (len : Nat) (rho : ℝ) (p : Nat → Nat) (Q A V : List E) : C (List E) :=
  forN len (fun kk V => do
    let q ← rd Q (p kk)
    let a ← rd A (p kk)
    wr V (p kk) (rho • q + (-1 : ℝ) • a)) V

/-- qmarray.c:3917-3924, 4074-4083: "improve orthogonality". -/
noncomputable def reorth (len ii : Nat) (pos : Nat → Nat → Nat) (Q V : List E) : C (List E) :=
  forN ii (fun zz V => do
    let v ← innerSum len (pos ii) V (pos zz) Q
    axpy len (-v) (pos zz) Q (pos ii) V) V

/-- qmarray.c:3926-3952, 4085-4109: normalisation of the reflector, or the starting vector itself when it is too small. -/
noncomputable def normalise (thr : ℝ) (len : Nat) (p : Nat → Nat) (Q V : List E) : C (List E) := do
  let s2 ← forN len (fun kk s => do
    let x ← rd V (p kk)
    pure (s + inner ℝ x x)) 0
  if |Real.sqrt s2| < thr then
    forN len (fun kk V => do
      let q ← rd Q (p kk)
      wr V (p kk) q) V
  else do
    let c ← dv 1 (Real.sqrt s2)
    scale len c p V

/-- qmarray.c:3958-3988, 4113-4124: the inner loop, vector `kk`: coefficient and removal of the component. -/
noncomputable def hqrInner (len ii : Nat) (pos rpos : Nat → Nat → Nat) (ev : ℝ) (Q V : List E) (kk : Nat) (s : List E × List ℝ) :
    C (List E × List ℝ) := do
  let temp ← innerSum len (pos ii) V (pos kk) s.1
  let r ← innerSum len (pos ii) Q (pos kk) s.1
  let R ← wr s.2 (rpos kk ii) r
  let r0 ← rd R (rpos kk ii)
  let R ← wr R (rpos kk ii) (r0 + -2 * ev * temp)
  let A ← forN len (fun ll A => do
    let v ← rd V (pos ii ll)
    let a ← rd A (pos kk ll)
    let A ← wr A (pos kk ll) ((-2 * temp) • v + a)
    let rr ← rd R (rpos kk ii)
    let q ← rd Q (pos ii ll)
    let a ← rd A (pos kk ll)
    wr A (pos kk ll) ((-rr) • q + a)) s.1
  pure (A, R)

/-- qmarray.c:3885-3989, 4046-4125: step `ii`. -/
noncomputable def hqrStep (thr : ℝ) (pos rpos : Nat → Nat → Nat) (m len ii : Nat) (s : HS E) : C (HS E) := do
  let rho ← arrNorm len (pos ii) s.A
  let R ← wr s.R (rpos ii ii) rho
  let alpha ← innerSum len (pos ii) s.Q (pos ii) s.A
  let Q ← signFix thr len (pos ii) alpha s.Q
  let V ← wsum len rho (pos ii) Q s.A s.V
  let V ← reorth len ii pos Q V
  let V ← normalise thr len (pos ii) Q V
  let ev ← innerSum len (pos ii) Q (pos ii) V
  let AR ← forR (ii + 1) m (hqrInner len ii pos rpos ev Q V) (s.A, R)
  pure ⟨AR.1, Q, V, AR.2⟩

/-- qmarray.c:4000-4019, 4127-4146 (in place), 2673-2725 `qmarray_qhouse`, 2897-2927 `qmarray_qhouse_rows`, quasimatrix.c:669-699
`quasimatrix_qhouse` (through a copy): the reflectors are applied in reverse order. -/
noncomputable def formQ (pos : Nat → Nat → Nat) (m len : Nat) (V Q : List E) : C (List E) :=
  forN m (fun counter Q =>
    let ii := m - 1 - counter
    forR ii m (fun jj Q => do
      let val ← innerSum len (pos jj) Q (pos ii) V
      axpy len (-2 * val) (pos ii) V (pos jj) Q) Q) Q

/-- qmarray.c:3851-4023 `qmarray_qr` and 4025-4150 `qmarray_lq`, which differ in the strides only: `m` vectors of `len` functions, component
`i` of vector `v` at position `pos v i`, coefficient of vector `k` with respect to `i` at `rpos k i`. `V` is allocated here. -/
noncomputable def hqr (thr : ℝ) (pos rpos : Nat → Nat → Nat) (m len : Nat) (A Q : List E) (R : List ℝ) : C (List E × List ℝ) := do
  let s ← forN m (hqrStep thr pos rpos m len) ⟨A, Q, List.replicate (m * len) 0, R⟩
  let Q ← formQ pos m len s.V s.Q
  pure (Q, s.R)

/-- qmarray.c:3851-4023 `qmarray_qr`: columns. -/
noncomputable def qmarrayQr (thr : ℝ) (nrows ncols : Nat) (A Q : List E) (R : List ℝ) : C (List E × List ℝ) :=
  hqr thr (fun v i => v * nrows + i) (fun k i => k * ncols + i) ncols nrows A Q R

/-- qmarray.c:4025-4150 `qmarray_lq`: rows; the factor is stored as a lower triangular matrix. -/
noncomputable def qmarrayLq (thr : ℝ) (nrows ncols : Nat) (A Q : List E) (L : List ℝ) : C (List E × List ℝ) :=
  hqr thr (fun v i => i * nrows + v) (fun k i => i * nrows + k) nrows ncols A Q L

/-- qmarray.c:2444-2661 `qmarray_householder`, 2740-2887 `qmarray_householder_rows`: vector `jj` of the inner loop. -/
noncomputable def hhInner (thr : ℝ) (len ii : Nat) (pos rpos : Nat → Nat → Nat) (Q v2 : List E) (jj : Nat) (s : List E × List ℝ) :
    C (List E × List ℝ) := do
  let t0 ← innerSum len idp v2 (pos jj) s.1
  let temp1 := if |t0| < thr then 0 else t0
  let at' ← daxpby len 1 (pos jj) s.1 (-2 * temp1) idp v2
  let r ← innerSum len (pos ii) Q idp at'
  let R ← wr s.2 (rpos jj ii) r
  let rr ← rd R (rpos jj ii)
  let v ← daxpby len 1 idp at' (-rr) (pos ii) Q
  let A ← setVec len (pos jj) v s.1
  pure (A, R)

/-- qmarray.c:2490-2499, 2778-2782: the starting vector changes sign when `alpha >= ZERO`. -/
noncomputable def hhSign (thr alpha : ℝ) (len : Nat) (p : Nat → Nat) (Q : List E) : C (List E) :=
  if thr ≤ alpha then flip len p Q else .ok Q

/-- qmarray.c:2517-2543, 2791-2805: orthogonalisation against the vectors before `ii - 1`. -/
noncomputable def hhOrth (len ii : Nat) (pos : Nat → Nat → Nat) (Q v : List E) : C (List E) :=
  if 1 < ii then
    forN (ii - 1) (fun jj v => do
      let temp1 ← innerSum len idp v (pos jj) Q
      daxpby len 1 idp v (-temp1) (pos jj) Q) v
  else .ok v

/-- qmarray.c:2563-2580, 2818-2830: the normalised reflector, or a copy of the starting vector. -/
noncomputable def hhRefl (thr sigma : ℝ) (len : Nat) (p : Nat → Nat) (Q v : List E) : C (List E) :=
  if |sigma| ≤ thr then daxpby1 len 1 p Q else do
    let c ← dv 1 sigma
    daxpby1 len c idp v

/-- qmarray.c:2459-2651, 2752-2883: step `ii`; the orthogonalisation loop stops before `ii - 1`. -/
noncomputable def hhStep (thr : ℝ) (pos rpos : Nat → Nat → Nat) (m len ii : Nat) (s : HS E) : C (HS E) := do
  let rho0 ← arrNorm len (pos ii) s.A
  let rho := if rho0 < thr then 0 else rho0
  let R ← wr s.R (rpos ii ii) rho
  let a0 ← innerSum len (pos ii) s.Q (pos ii) s.A
  let alpha := if |a0| < thr then 0 else a0
  let Q ← hhSign thr alpha len (pos ii) s.Q
  let v ← daxpby len rho (pos ii) Q (-1) (pos ii) s.A
  let v ← hhOrth len ii pos Q v
  let sigma0 ← arrNorm len idp v
  let sigma := if sigma0 < thr then 0 else sigma0
  let v2 ← hhRefl thr sigma len (pos ii) Q v
  let V ← setVec len (pos ii) v2 s.V
  let AR ← forR (ii + 1) m (hhInner thr len ii pos rpos Q v2) (s.A, R)
  pure ⟨AR.1, Q, V, AR.2⟩

/-- qmarray.c:2942-3010 `qmarray_householder_simple`, piecewise polynomials: sweep, then forming of `Q`. -/
noncomputable def householder (thr : ℝ) (pos rpos : Nat → Nat → Nat) (m len : Nat) (A Q : List E) (R : List ℝ) : C (List E × List ℝ) := do
  let s ← forN m (hhStep thr pos rpos m len) ⟨A, Q, List.replicate (m * len) 0, R⟩
  let Q ← formQ pos m len s.V s.Q
  pure (Q, s.R)

/-- qmarray.c:2444-2661 with 2673-2725. -/
noncomputable def qmarrayHouseholder (thr : ℝ) (nrows ncols : Nat) (A Q : List E) (R : List ℝ) : C (List E × List ℝ) :=
  householder thr (fun v i => v * nrows + i) (fun k i => k * ncols + i) ncols nrows A Q R

/-- qmarray.c:2740-2887 with 2897-2927. -/
noncomputable def qmarrayHouseholderRows (thr : ℝ) (nrows ncols : Nat) (A Q : List E) (L : List ℝ) : C (List E × List ℝ) :=
  householder thr (fun v i => i * nrows + v) (fun k i => i * nrows + k) nrows ncols A Q L

/-- quasimatrix.c:632-652: column `jj` of the inner loop. -/
noncomputable def qmInner (thr : ℝ) (n ii : Nat) (e v2 : E) (jj : Nat) (s : List E × List ℝ) : C (List E × List ℝ) := do
  let a ← rd s.1 jj
  let t0 : ℝ := inner ℝ v2 a
  let temp1 := if |t0| < thr then 0 else t0
  let at' := (1 : ℝ) • a + (-2 * temp1) • v2
  let R ← wr s.2 (jj * n + ii) (inner ℝ e at')
  let rr ← rd R (jj * n + ii)
  let A ← wr s.1 jj ((1 : ℝ) • at' + (-rr) • e)
  pure (A, R)

/-- quasimatrix.c:610-612: sign of the starting function. -/
noncomputable def qmSign (thr alpha : ℝ) (ii : Nat) (Q : List E) (e0 : E) : C (List E) :=
  if thr ≤ alpha then wr Q ii (-e0) else .ok Q

/-- quasimatrix.c:624-631: the normalised reflector, or the starting function. -/
noncomputable def qmRefl (thr sigma : ℝ) (e v : E) : C E :=
  if |sigma| ≤ thr then .ok e else do
    let c ← dv 1 sigma
    pure (c • v)

/-- quasimatrix.c:599-654: step `ii` of `quasimatrix_householder`. -/
noncomputable def qmStep (thr : ℝ) (n ii : Nat) (s : HS E) : C (HS E) := do
  let e0 ← rd s.Q ii
  let x ← rd s.A ii
  let rho := fnorm x
  let R ← wr s.R (ii * n + ii) rho
  let alpha : ℝ := inner ℝ e0 x
  let Q ← qmSign thr alpha ii s.Q e0
  let e ← rd Q ii
  let v := rho • e + (-1 : ℝ) • x
  let sigma := fnorm v
  let v2 ← qmRefl thr sigma e v
  let V ← wr s.V ii v2
  let AR ← forR (ii + 1) n (qmInner thr n ii e v2) (s.A, R)
  pure ⟨AR.1, Q, V, AR.2⟩

/-- quasimatrix.c:553-573 `quasimatrix_householder_simple`: sweep (588-657), then forming of `Q` (669-699); `Q` enters with the
orthonormal functions of `quasimatrix_orth1d`. -/
noncomputable def quasimatrixQr (thr : ℝ) (n : Nat) (A Q : List E) (R : List ℝ) : C (List E × List ℝ) := do
  let s ← forN n (qmStep thr n) ⟨A, Q, List.replicate n 0, R⟩
  let Q ← formQ (fun v i => v + i) n 1 s.V s.Q
  pure (Q, s.R)

/-- qmarray.c:4152-4177 `qmarray_qr_gs`, 4180-4210 `qmarray_lq_gs`: step `ii`. -/
noncomputable def gsStep (thr : ℝ) (pos rpos : Nat → Nat → Nat) (m len ii : Nat) (s : List E × List ℝ) : C (List E × List ℝ) := do
  let nrm ← arrNorm len (pos ii) s.1
  let R ← wr s.2 (rpos ii ii) nrm
  let d ← rd R (rpos ii ii)
  if thr < d then do
    let c ← dv 1 d
    let A ← scale len c (pos ii) s.1
    forR (ii + 1) m (fun jj (s : List E × List ℝ) => do
      let r ← innerSum len (pos ii) s.1 (pos jj) s.1
      let R ← wr s.2 (rpos jj ii) r
      let rr ← rd R (rpos jj ii)
      let A ← axpyIn len (-rr) (pos ii) (pos jj) s.1
      pure (A, R)) (A, R)
  else .error .assertFail

/-- qmarray.c:4152-4210: modified Gram-Schmidt; the array becomes the orthonormal factor. -/
noncomputable def gs (thr : ℝ) (pos rpos : Nat → Nat → Nat) (m len : Nat) (A : List E) (R : List ℝ) : C (List E × List ℝ) :=
  forN m (gsStep thr pos rpos m len) (A, R)

/-- qmarray.c:4152-4177 `qmarray_qr_gs`. -/
noncomputable def qmarrayQrGs (thr : ℝ) (nrows ncols : Nat) (A : List E) (R : List ℝ) : C (List E × List ℝ) :=
  gs thr (fun v i => v * nrows + i) (fun k i => k * ncols + i) ncols nrows A R

/-- qmarray.c:4180-4210 `qmarray_lq_gs`. -/
noncomputable def qmarrayLqGs (thr : ℝ) (nrows ncols : Nat) (A : List E) (L : List ℝ) : C (List E × List ℝ) :=
  gs thr (fun v i => i * nrows + v) (fun k i => i * nrows + k) nrows ncols A L

end C3.Qr

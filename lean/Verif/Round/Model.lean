/-
Rounding of function trains: lib_clinalg/ft.c `function_train_orthor`, `function_train_round`,
`function_train_round_maxrank_all`, lib_clinalg/qmarray.c `qmarray_truncated_svd`, `qmarray_first_cols`,
lib_linalg/linalg.c `truncated_svd`.

The orthogonal decompositions of arrays of functions (`qmarray_householder_simple`, modelled separately in Verif/Qr) and
LAPACK's `dgesdd` are arguments. Arrays that the C code copies or frees are values here.
-/
import Verif.Ft.InnerAlg
import Verif.Arr.Model

namespace C3.Round
open C3.Ft
variable {U : Type}

/-- What `dgesdd("A",...)` returns. -/
structure Svd where
  u : List ℝ
  s : List ℝ
  vt : List ℝ

/-- The routines rounding is built on. `qr k A` and `lq k A` are `qmarray_householder_simple("QR"/"LQ",A,R,o)` with the
options of dimension `k`: the orthonormal array and the triangular factor. `svd m n M` is linalg.c:283-325 `svd` on an
`m × n` matrix with leading dimension `m`. `zero` is `function_train_constant(0.0,aopts)`. -/
structure RdOps (U : Type) where
  lin : LOps ℝ U
  inner : U → U → C ℝ
  qr : Nat → Qma U → C (Qma U × List ℝ)
  lq : Nat → Qma U → C (Qma U × List ℝ)
  svd : Nat → Nat → List ℝ → C Svd
  zero : C (FT ℝ U)

/-- Cores written so far and the triangular factor carried to the left. -/
structure Osc (U : Type) where
  cores : List (Option (Qma U))
  L : List ℝ

/-- ft.c:2550-2560, loop body. -/
noncomputable def orthorStep (o : RdOps U) (a : FT ℝ U) (ii : Nat) (t : Osc U) : C (Osc U) := do
  let core := a.dim - ii
  let A ← rd a.cores core
  let r ← rd a.ranks (core + 1)
  let temp ← qmam o.lin A t.L r
  let q ← o.lq core temp
  let cs ← wr t.cores core (some q.1)
  pure ⟨cs, q.2⟩

/-- ft.c:2527-2567 `function_train_orthor`. `a->dim-1` for dimension 0 is 0 here, which is out of range as well. -/
noncomputable def orthor (o : RdOps U) (a : FT ℝ U) : C (FT ℝ U) := do
  let last ← rd a.cores (a.dim - 1)
  let q ← o.lq (a.dim - 1) last
  let cs ← wr (List.replicate a.dim none) (a.dim - 1) (some q.1)
  let t ← forR 2 a.dim (orthorStep o a) ⟨cs, q.2⟩
  let A ← rd a.cores 0
  let r ← rd a.ranks 1
  let c0 ← qmam o.lin A t.L r
  let cs ← wr t.cores 0 (some c0)
  ftDone a.dim a.ranks cs

/-- Running sum of squares, rank, and whether the loop has been left. -/
structure Rk where
  sum : ℝ
  rank : Nat
  stop : Bool

/-- linalg.c:374-383, loop body. -/
noncomputable def rankStep (n : Nat) (s : List ℝ) (delta : ℝ) (ii : Nat) (t : Rk) : C Rk :=
  if t.stop then pure t
  else do
    let v ← rd s (n - ii - 1)
    if t.sum + v ^ 2 ≥ delta then pure ⟨t.sum + v ^ 2, t.rank, true⟩
    else if t.rank = 1 then pure ⟨t.sum + v ^ 2, t.rank, true⟩
    else pure ⟨t.sum + v ^ 2, t.rank - 1, false⟩

/-- linalg.c:368-383: how many of the `n` singular values to keep. -/
noncomputable def svdRank (n : Nat) (s : List ℝ) (delta : ℝ) : C Nat := do
  let t ← forN n (rankStep n s delta) ⟨0, n, false⟩
  pure t.rank

/-- `u` has `m` rows and `rank` columns, `vt` has `rank` rows and `n` columns. -/
structure Tsvd where
  rank : Nat
  u : List ℝ
  s : List ℝ
  vt : List ℝ

/-- linalg.c:345-401 `truncated_svd` (the leading dimension is `m` in all calls). -/
noncomputable def truncSvd (svd : Nat → Nat → List ℝ → C Svd) (m n : Nat) (a : List ℝ) (delta : ℝ) : C Tsvd := do
  let w ← svd m n a
  let rank ← svdRank (min m n) w.s delta
  let u ← collect (rank * m) (fun i => rd w.u i)
  let vt ← forN n (fun ii => forN rank (fun jj vt => do
    let x ← rd w.vt (ii * n + jj)
    wr vt (ii * rank + jj) x)) (List.replicate (rank * n) 0)
  let s ← collect rank (fun i => rd w.s i)
  pure ⟨rank, u, s, vt⟩

/-- Result of the truncated decomposition of an array of functions. -/
structure QTsvd (U : Type) where
  core : Qma U
  rank : Nat
  s : List ℝ
  vt : List ℝ

/-- qmarray.c:3117-3142 `qmarray_truncated_svd`. -/
noncomputable def qmaTsvd (o : RdOps U) (k : Nat) (A : Qma U) (delta : ℝ) : C (QTsvd U) := do
  let q ← o.qr k A
  let t ← truncSvd o.svd A.ncols A.ncols q.2 delta
  let c ← qmam o.lin q.1 t.u t.rank
  pure ⟨c, t.rank, t.s, t.vt⟩

/-- qmarray.c:156-165 `qmarray_first_cols`. -/
def firstCols (Q : Qma U) (n : Nat) : C (Qma U) := do
  cassert (decide (Q.ncols ≥ n))
  let fs ← collect (Q.nrows * n) (fun i => rd Q.funcs i)
  pure ⟨Q.nrows, n, fs⟩

/-- ft.c:2721-2739 and 2757-2773: cut the decomposition to `mr` columns; `w` is the number of columns of `vt`. -/
def cutTo (mr w : Nat) (t : QTsvd U) : C (QTsvd U) :=
  if t.rank > mr then do
    let c ← firstCols t.core mr
    let vt ← forN w (fun jj => forN mr (fun ii vt => do
      let x ← rd t.vt (jj * t.rank + ii)
      wr vt (jj * mr + ii) x)) (List.replicate (mr * w) 0)
    pure ⟨c, mr, t.s, vt⟩
  else pure t

/-- With a rank bound or without. -/
def cutOpt (mr : Option Nat) (w : Nat) (t : QTsvd U) : C (QTsvd U) :=
  match mr with
  | none => pure t
  | some m => cutTo m w t

/-- ft.c:2616-2622 and 2635-2640: multiply `diag(s) vt` into the next core; `w` is the number of columns of `vt`. -/
noncomputable def absorb (o : RdOps U) (t : QTsvd U) (w : Nat) (next : Qma U) : C (Qma U) := do
  let sd ← Arr.diag t.rank t.s
  let svt ← dgemmNN t.rank w t.rank sd t.rank t.vt t.rank (List.replicate (t.rank * w) 0) t.rank
  mqma o.lin svt next t.rank

/-- The train under construction and the core carried to the right. -/
structure Rst (U : Type) where
  ranks : List Nat
  cores : List (Option (Qma U))
  temp : Qma U

/-- ft.c:2629-2648, loop body, and with `mr` ft.c:2753-2789. -/
noncomputable def roundStep (o : RdOps U) (mr : Option Nat) (a ftrl : FT ℝ U) (delta : ℝ) (core : Nat) (t : Rst U) :
    C (Rst U) := do
  let d ← qmaTsvd o core t.temp delta
  let d ← cutOpt mr t.temp.ncols d
  let cs ← wr t.cores core (some d.core)
  let rk ← wr t.ranks (core + 1) d.rank
  let w ← rd a.ranks (core + 1)
  let next ← rd ftrl.cores (core + 1)
  let temp ← absorb o d w next
  pure ⟨rk, cs, temp⟩

/-- ft.c:2601-2627, the first core, and with `mr` ft.c:2703-2751. -/
noncomputable def roundFirst (o : RdOps U) (mr : Option Nat) (ftrl : FT ℝ U) (dim : Nat) (delta : ℝ) : C (Rst U) := do
  let rk ← wr (List.replicate (dim + 1) 0) 0 1
  let A ← rd ftrl.cores 0
  let d ← qmaTsvd o 0 A delta
  let d ← cutOpt mr A.ncols d
  let cs ← wr (List.replicate dim none) 0 (some d.core)
  let rk ← wr rk 1 d.rank
  let next ← rd ftrl.cores 1
  let temp ← absorb o d A.ncols next
  pure ⟨rk, cs, temp⟩

/-- ft.c:2588-2666 after the zero test. In dimension 1 the division by `sqrt(0)` gives an infinity in C; nothing depends on
it, because `ftrl->cores[1]` does not exist. -/
noncomputable def roundMain (o : RdOps U) (mr : Option Nat) (ain : FT ℝ U) (eps : ℝ) : C (FT ℝ U) := do
  let a ← ftCopy ain
  let nrm ← ftNorm2 o.lin o.inner a
  let delta := nrm * eps / Real.sqrt ((a.dim - 1 : Nat) : ℝ)
  let ftrl ← orthor o a
  let t ← roundFirst o mr ftrl a.dim delta
  let t ← forR 1 (a.dim - 1) (roundStep o mr a ftrl delta) t
  let cs ← wr t.cores (a.dim - 1) (some t.temp)
  let rk ← wr t.ranks a.dim 1
  ftDone a.dim rk cs

/-- ft.c:2579-2667 `function_train_round` (`mr = none`) and ft.c:2681-2806 `function_train_round_maxrank_all`
(`mr = some max_rank`), which is the same text with the cuts added; `thr` is ZEROTHRESH. -/
noncomputable def ftRound (o : RdOps U) (mr : Option Nat) (thr : ℝ) (ain : FT ℝ U) (eps : ℝ) : C (FT ℝ U) := do
  let nrm ← ftNorm2 o.lin o.inner ain
  if nrm < thr then o.zero else roundMain o mr ain eps

end C3.Round

/-
Quasimatrices (C146): c3/lib_clinalg/quasimatrix.c `quasimatrix_absmax`, `quasimatrix_inner`, `qmv`, `qmm`, `qmmt`, `quasimatrix_daxpby`
and functions.c `generic_function_array_daxpby`, over the generic functions of `Verif/Gf/Model.lean`. Arrays of functions that are
allocated and filled from left to right are built by `Ft.collect`. `malloc` never fails.
-/
import Verif.Gf.Model

namespace C3.Gf

variable {K V X L : Type}

/-- quasimatrix.h `struct Quasimatrix`. -/
structure QM (V : Type) where
  n : Nat
  funcs : List (GF V)

/-- quasimatrix.c:373-394 `quasimatrix_absmax`: column, location, value; `am` is `generic_function_absmax`. -/
def qmAbsmax [LT K] [DecidableRel (α := K) (· < ·)] (am : GF V → C (L × K)) (q : QM V) : C (Nat × L × K) := do
  let f ← rd q.funcs 0
  let r ← am f
  forR 1 q.n (fun ii s => do
    let f ← rd q.funcs ii
    let t ← am f
    .ok (if s.2.2 < t.2 then (ii, t) else s)) (0, r)

/-- quasimatrix.c:411-431 `quasimatrix_inner` (the arrays of functions are not NULL). -/
def qmInner [Zero K] [Add K] (I : Impl K V X) (a b : Option (QM V)) : C K :=
  match a, b with
  | none, _ => .error .assertFail
  | _, none => .error .assertFail
  | some a, some b => do
    cassert (decide (a.n = b.n))
    forN a.n (fun ii mag => do
      let f ← rd a.funcs ii
      let g ← rd b.funcs ii
      let v ← inner I f g
      .ok (mag + v)) 0

/-- quasimatrix.c:441-447 `qmv`. -/
def qmv [Zero K] [One K] (I : Impl K V X) (q : QM V) (v : List K) : C (GF V) := linComb I q.n q.funcs v

/-- quasimatrix.c:458-469 `qmm`. -/
def qmm [Zero K] [One K] (I : Impl K V X) (q : QM V) (R : List K) (b : Nat) : C (QM V) := do
  let fs ← Ft.collect b (fun ii => linComb I q.n q.funcs (R.drop (ii * q.n)))
  .ok ⟨b, fs⟩

/-- quasimatrix.c:480-493 `qmmt`. -/
def qmmt [Zero K] [One K] (I : Impl K V X) (q : QM V) (R : List K) (b : Nat) : C (QM V) := do
  let Rt ← forN b (fun ii => forN q.n (fun jj Rt => do
    let v ← rd R (jj * b + ii)
    wr Rt (ii * q.n + jj) v)) (List.replicate (q.n * b) 0)
  qmm I q Rt b

/-- functions.c:840-870 `generic_function_array_daxpby`. -/
def arrayDaxpby [Zero K] (I : Impl K V X) (n : Nat) (a : K) (ldx : Nat) (x : Option (List (GF V))) (b : K) (ldy : Nat)
    (y : Option (List (GF V))) : C (List (GF V)) :=
  match x, y with
  | none, none => if n = 0 then .ok [] else .error .null
  | some x, none => Ft.collect n (fun ii => do
      let f ← rd x (ii * ldx)
      daxpby I a (some f) 0 none)
  | none, some y => Ft.collect n (fun ii => do
      let f ← rd y (ii * ldy)
      daxpby I b (some f) 0 none)
  | some x, some y => Ft.collect n (fun ii => do
      let f ← rd x (ii * ldx)
      let g ← rd y (ii * ldy)
      daxpby I a (some f) b (some g))

/-- quasimatrix.c:505-534 `quasimatrix_daxpby`. The number of columns of the second quasimatrix is not looked at. -/
def qmDaxpby [Zero K] (I : Impl K V X) (a : K) (x : Option (QM V)) (b : K) (y : Option (QM V)) : C (Option (QM V)) :=
  match x, y with
  | none, none => .ok none
  | none, some y => do
    let fs ← arrayDaxpby I y.n b 1 (some y.funcs) 0 1 none
    .ok (some ⟨y.n, fs⟩)
  | some x, none => do
    let fs ← arrayDaxpby I x.n a 1 (some x.funcs) 0 1 none
    .ok (some ⟨x.n, fs⟩)
  | some x, some y => do
    let fs ← arrayDaxpby I x.n a 1 (some x.funcs) b 1 (some y.funcs)
    .ok (some ⟨x.n, fs⟩)

end C3.Gf

/-
Functions with prescribed zeros and ones (C142): `generic_function_onezero` (a nodal function that is one at a point and zero at
others) and `generic_function_array_onezero` (the columns that replace vanishing ones in the elimination of arrays of functions),
c3/lib_funcs/functions.c.
-/
import Verif.Lin.Model
import Verif.Mv.Model

namespace C3.Gf

section Hat
variable {K : Type} [Field K] [LinearOrder K]

/-- The variables of the loop: `nodes`, `coeff`, `ind`, `alloc`. -/
structure OZ (K : Type) where
  nodes : List K
  coeff : List K
  ind : Nat
  alloc : Bool

/-- c3/lib_funcs/functions.c:590-609 (and 627-646): one zero. -/
def ozStep (one : K) (zeros : List K) (ii : Nat) (s : OZ K) : C (OZ K) := do
  let z ← rd zeros ii
  if z < one then do
    let n ← wr s.nodes s.ind z
    .ok { s with nodes := n, ind := s.ind + 1 }
  else if s.alloc = false then do
    let n ← wr s.nodes s.ind one
    let c ← wr s.coeff s.ind 1
    let n ← wr n (s.ind + 1) z
    .ok ⟨n, c, s.ind + 1 + 1, true⟩
  else do
    let n ← wr s.nodes s.ind z
    .ok { s with nodes := n, ind := s.ind + 1 }

/-- c3/lib_funcs/functions.c:610-614 (and 647-651). -/
def ozLast (one : K) (s : OZ K) : C (OZ K) :=
  if s.alloc = false then do
    let n ← wr s.nodes s.ind one
    let c ← wr s.coeff s.ind 1
    .ok { s with nodes := n, coeff := c, ind := s.ind + 1 }
  else .ok s

/-- c3/lib_funcs/functions.c:567-652 `generic_function_onezero` for LINELM; the branch for CONSTELM is the same text. -/
def onezero (one : K) (nz : Nat) (zeros : List K) (lb ub : K) : C (Lin.LE K) := do
  let n ← wr (List.replicate (nz + 3) 0) 0 lb
  let s ← forN nz (ozStep one zeros) ⟨n, List.replicate (nz + 3) 0, 1, false⟩
  let s ← ozLast one s
  cassert (decide (s.ind = nz + 2))
  let n ← wr s.nodes (nz + 2) ub
  .ok ⟨nz + 3, n, s.coeff⟩

end Hat

/-- c3/lib_funcs/functions.c:1068-1070: the number of pivots in each function. -/
def countPiv (n upto : Nat) (piv : List Nat) : C (List Nat) :=
  forN upto (fun ii np => do
    let p ← rd piv ii
    let c ← rd np p
    wr np p (c + 1)) (List.replicate n 0)

/-- c3/lib_funcs/functions.c:1073-1081: the locations of the pivots of function `ii`. -/
def gatherPiv (upto : Nat) (piv : List Nat) (px : List ℝ) (ii c : Nat) : C (List ℝ × Nat) :=
  forN upto (fun jj s => do
    let p ← rd piv jj
    if p = ii then do
      let v ← rd px jj
      let x ← wr s.1 s.2 v
      .ok (x, s.2 + 1)
    else .ok s) (List.replicate c 0, 0)

variable {U : Type}

/-- c3/lib_funcs/functions.c:1052-1099 `generic_function_array_onezero`: the functions, `piv` and `px`. `mk` is
`generic_function_onezero2` (`C3.Lin.onezero`, `C3.Pc.onezero`), `am` is `generic_function_absmax`, `ev` the evaluation, `sc` the
scaling. Division by zero is undefined. -/
noncomputable def arrayOnezero (mk : List ℝ → C U) (am : U → C (ℝ × ℝ)) (ev : U → ℝ → ℝ) (sc : ℝ → U → C U) (n upto : Nat)
    (piv : List Nat) (px : List ℝ) : C (List U × List Nat × List ℝ) := do
  let np ← countPiv n upto piv
  let L ← Ft.collect n (fun ii => do
    let c ← rd np ii
    let x ← gatherPiv upto piv px ii c
    mk x.1)
  let m ← Mv.arrAbsmax am n L
  let px' ← wr px upto m.x
  let piv' ← wr piv upto m.ind
  let f ← rd L m.ind
  if ev f m.x = 0 then .error .ub else do
  let L' ← Ft.collect n (fun ii => do
    let g ← rd L ii
    sc (1 / ev f m.x) g)
  .ok (L', piv', px')

end C3.Gf

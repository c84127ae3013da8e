/-
Function trains: data structures and evaluation (lib_clinalg/ft.c, lib_clinalg/qmarray.c).

A univariate function is an abstract object of type `U`; `Ev` lists how the function-train layer evaluates it. `K` is the
number type (exact), `X` the type of evaluation points (`K` itself for `function_train_eval`, node indices for the `_ind`
variants).
-/
import Verif.Core.Sum

namespace C3.Ft

/-- Quasimatrix array, lib_clinalg/qmarray.h `struct Qmarray`: `funcs[j*nrows+i]` is entry `(i,j)`. -/
structure Qma (U : Type) where
  nrows : Nat
  ncols : Nat
  funcs : List U

/-- ft.c:78-83 `struct FTMemSpace`. -/
structure Space (K : Type) where
  num : Nat
  size : Nat
  vals : List K

/-- lib_clinalg/ft.h `struct FunctionTrain` with the evaluation scratch spaces 1-3 (`none` is NULL). -/
structure FT (K U : Type) where
  dim : Nat
  ranks : List Nat
  cores : List (Qma U)
  sp1 : Option (Space K) := none
  sp2 : Option (Space K) := none
  sp3 : Option (Space K) := none

variable {K U X : Type} [Field K]

/-- How the function-train layer evaluates arrays of univariate functions: `ev` is `generic_function_1d_eval` (or
`_1d_eval_ind`), `poly` tells whether the function class is POLYNOMIAL. -/
structure Ev (K U X : Type) where
  ev : U → X → K
  poly : U → Bool

/-- lib_funcs/functions.c:1529-1557 `generic_function_1darray_eval2`, and functions.c:1574-1607 `_eval2N` for one point.
The local array `parr[1000]` is filled before its bound is checked: more than 1000 leading POLYNOMIAL functions write
outside it. Simplifications: the batched evaluation of polynomials is identified with function-by-function evaluation,
and the aborts on values above 1e100 are not modelled. -/
def evalArr (e : Ev K U X) (n : Nat) (f : List U) (x : X) (out : List K) : C (List K) :=
  if 1000 < n ∧ (f.take 1001).all e.poly = true then .error .oob
  else forN n (fun ii out => do
    let g ← rd f ii
    wr out ii (e.ev g x)) out

/-- ft.c:526-541 `function_train_get_maxrank`. -/
def maxrank (ft : FT K U) : C Nat :=
  forN (ft.dim + 1) (fun ii mr => do
    let r ← rd ft.ranks ii
    pure (if r > mr then r else mr)) 1

/-- ft.c:85-98 `ft_mem_space_alloc`: zero-initialised. -/
def spaceAlloc (num size : Nat) : Space K := ⟨num, size, List.replicate (num * size) 0⟩

/-- ft.c:136-154 `ft_mem_space_check` followed by allocation when it reports NULL (ft.c:659-670). -/
def spaceFor (s : Option (Space K)) (num size : Nat) : Space K :=
  match s with
  | none => spaceAlloc num size
  | some s => if s.num < num ∨ s.size ≠ size then spaceAlloc num size else s

/-- Working state of an evaluation: the three scratch buffers and `onsol`. -/
structure Scr (K : Type) where
  t1 : List K
  t2 : List K
  t3 : List K
  onsol : Nat

/-- ft.c:651-675 `function_train_pre_eval` for one point. -/
def preEval (ft : FT K U) : C (Scr K) := do
  let mr ← maxrank ft
  pure ⟨(spaceFor ft.sp1 1 (mr * mr)).vals, (spaceFor ft.sp2 1 (mr * mr)).vals, (spaceFor ft.sp3 1 (mr * mr)).vals, 1⟩

/-- The scratch spaces after an evaluation keep what was written to them. -/
def keepSpaces (ft : FT K U) (s : Scr K) : C (FT K U) := do
  let mr ← maxrank ft
  pure { ft with
    sp1 := some { spaceFor ft.sp1 1 (mr * mr) with vals := s.t1 }
    sp2 := some { spaceFor ft.sp2 1 (mr * mr) with vals := s.t2 }
    sp3 := some { spaceFor ft.sp3 1 (mr * mr) with vals := s.t3 } }

/-- ft.c:589-612 `function_train_eval_next_core` for one point: returns (`new_eval_space`, `new_eval`). -/
def nextCore (e : Ev K U X) (ft : FT K U) (core : Nat) (x : X) (prev space new : List K) : C (List K × List K) := do
  cassert (decide (core > 0))
  let Q ← rd ft.cores core
  let space ← evalArr e (Q.nrows * Q.ncols) Q.funcs x space
  let new ← dgemvT Q.nrows Q.ncols space Q.nrows prev new
  pure (space, new)

/-- Loop body of ft.c:768-785. -/
def evalStep (e : Ev K U X) (ft : FT K U) (x : List X) (ii : Nat) (s : Scr K) : C (Scr K) := do
  let xi ← rd x ii
  if ii % 2 = 1 then do
    let r ← nextCore e ft ii xi s.t1 s.t2 s.t3
    pure ⟨s.t1, r.1, r.2, 2⟩
  else do
    let r ← nextCore e ft ii xi s.t3 s.t2 s.t1
    pure ⟨r.2, r.1, s.t3, 1⟩

/-- ft.c:786-797: the result is read from the buffer written last. -/
def readOut (s : Scr K) : C K :=
  if s.onsol = 2 then rd s.t3 0 else if s.onsol = 1 then rd s.t1 0 else .error .exit

/-- ft.c:751-823 `function_train_eval`: value and the train with updated scratch spaces. -/
def eval (e : Ev K U X) (ft : FT K U) (x : List X) : C (K × FT K U) := do
  let r0 ← rd ft.ranks 0
  cassert (decide (r0 = 1))
  let rd' ← rd ft.ranks ft.dim
  cassert (decide (rd' = 1))
  let s ← preEval ft
  let Q ← rd ft.cores 0
  let x0 ← rd x 0
  let t1 ← evalArr e (Q.nrows * Q.ncols) Q.funcs x0 s.t1
  let s ← forR 1 ft.dim (evalStep e ft x) { s with t1 := t1 }
  let out ← readOut s
  let ft ← keepSpaces ft s
  pure (out, ft)

/-- ft.c:735-740 `function_train_evals`: `N` points stored one after the other. -/
def evals (e : Ev K U X) (ft : FT K U) (N : Nat) (x : List X) : C (List K × FT K U) :=
  forN N (fun ii (s : List K × FT K U) => do
    let r ← eval e s.2 (x.drop (ii * ft.dim))
    pure (s.1 ++ [r.1], r.2)) ([], ft)

/-- Loop body of ft.c:1021-1044 (`function_train_eval_ind`): the core is evaluated first, then multiplied using
`ft->ranks`. -/
def evalIndStep (e : Ev K U X) (ft : FT K U) (x : List X) (ii : Nat) (s : Scr K) : C (Scr K) := do
  let Q ← rd ft.cores ii
  let xi ← rd x ii
  let t2 ← evalArr e (Q.nrows * Q.ncols) Q.funcs xi s.t2
  let ra ← rd ft.ranks ii
  let rb ← rd ft.ranks (ii + 1)
  if ii % 2 = 1 then do
    let t3 ← dgemvT ra rb t2 ra s.t1 s.t3
    pure ⟨s.t1, t2, t3, 2⟩
  else do
    let t1 ← dgemvT ra rb t2 ra s.t3 s.t1
    pure ⟨t1, t2, s.t3, 1⟩

/-- ft.c:1003-1063 `function_train_eval_ind` (`X` is the type of node indices; `generic_function_1darray_eval2_ind`
evaluates function by function without the local array, so `e.poly` is constantly false in that use). -/
def evalInd (e : Ev K U X) (ft : FT K U) (x : List X) : C (K × FT K U) := do
  let r0 ← rd ft.ranks 0
  cassert (decide (r0 = 1))
  let rd' ← rd ft.ranks ft.dim
  cassert (decide (rd' = 1))
  let s ← preEval ft
  let Q ← rd ft.cores 0
  let x0 ← rd x 0
  let t1 ← evalArr e (Q.nrows * Q.ncols) Q.funcs x0 s.t1
  let s ← forR 1 ft.dim (evalIndStep e ft x) { s with t1 := t1 }
  let out ← readOut s
  let ft ← keepSpaces ft s
  pure (out, ft)

end C3.Ft

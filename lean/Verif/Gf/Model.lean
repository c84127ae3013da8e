/-
Generic functions (C141): the tagged union of c3/lib_funcs/functions.h and the operations that choose an implementation by the tag
(c3/lib_funcs/futil.h, functions.c, funcs_mixed.c). A `GenericFunction` is a tag `fc` and a pointer `f` of type `void *`; the model
keeps beside the pointer the class of the object it really points to. Using the object as one of another class is undefined
behaviour. The implementations for the five classes are arguments.
-/
import Verif.Core.Mem
import Verif.Ft.Mul

namespace C3.Gf

/-- c3/lib_funcs/functions.h: `enum function_class` (the classes that the switches know). -/
inductive Fc | pw | poly | const | lin | kern
  deriving DecidableEq

/-- What a `void *` points to: the real class of the object and its content. -/
structure Obj (V : Type) where
  cls : Fc
  val : V

/-- `struct GenericFunction`: the tag and the pointer (`none` is NULL). `dim` is 1 everywhere and `fargs` is never read. -/
structure GF (V : Type) where
  fc : Fc
  f : Option (Obj V)

/-- The implementations: `piecewise_poly_*`, `orth_poly_expansion_*`, `const_elem_exp_*`, `lin_elem_exp_*`, `kernel_expansion_*`.
`axpy` returns its code and the new second function. `leaf` is the tree of one leaf that holds a polynomial
(`piecewise_poly_alloc` followed by `ap->ope = a->f`, which the code writes in place). -/
structure Impl (K V X : Type) where
  scale : Fc → K → V → C V
  axpy : Fc → K → V → V → C (Int × V)
  eval : Fc → V → X → C K
  nodal : Fc → V → Nat → C K
  inner : Fc → V → V → C K
  prod : Fc → V → V → C V
  polyDaxpby : K → V → K → V → C V
  pwDaxpby : K → V → K → V → C V
  leaf : V → V

variable {K V X : Type}

/-- Use of the pointer as an object of class `c`. -/
def asCls (c : Fc) (p : Option (Obj V)) : C V :=
  match p with
  | none => .error .null
  | some o => if o.cls = c then .ok o.val else .error .ub

/-- c3/lib_funcs/futil.h:179-192 `GF_IN_OUT(copy)`, functions.c:225. Copies of objects are the identity. -/
def copy (g : GF V) : C (GF V) := do
  let v ← asCls g.fc g.f
  .ok ⟨g.fc, some ⟨g.fc, v⟩⟩

/-- c3/lib_funcs/functions.c:1221-1224 `generic_function_scale`. -/
def scale (I : Impl K V X) (a : K) (g : GF V) : C (GF V) := do
  let v ← asCls g.fc g.f
  let w ← I.scale g.fc a v
  .ok ⟨g.fc, some ⟨g.fc, w⟩⟩

/-- c3/lib_funcs/functions.c:1167-1179 `generic_function_axpy` on functions that are not NULL: the code and the new `y`. -/
def axpy (I : Impl K V X) (a : K) (x y : GF V) : C (Int × GF V) := do
  cassert (decide (x.fc = y.fc))
  let v ← asCls x.fc x.f
  let w ← asCls x.fc y.f
  let r ← I.axpy x.fc a v w
  .ok (r.1, ⟨y.fc, some ⟨x.fc, r.2⟩⟩)

/-- c3/lib_funcs/functions.c:1376-1391 `generic_function_1d_eval` (the checks for NaN and infinity have no counterpart). -/
def eval (I : Impl K V X) (g : GF V) (x : X) : C K := do
  let v ← asCls g.fc g.f
  I.eval g.fc v x

/-- c3/lib_funcs/functions.c:1436-1451 `generic_function_1d_eval_ind`. -/
def evalInd (I : Impl K V X) (g : GF V) (i : Nat) : C K :=
  match g.fc with
  | .lin => do let v ← asCls .lin g.f; I.nodal .lin v i
  | .const => do let v ← asCls .const g.f; I.nodal .const v i
  | _ => .error .assertFail

/-- c3/lib_funcs/functions.c:1484-1518 `generic_function_1d_eval_gen`: the location is a word of memory, read as a number or as an
index according to its size. `ds`, `ss` are `sizeof(double)` and `sizeof(size_t)`. -/
def evalGen {Wd : Type} (I : Impl K V X) (ds ss : Nat) (asDouble : Wd → X) (asSize : Wd → Nat) (g : GF V) (loc : Wd) (size : Nat) :
    C K :=
  if size = ds then eval I g (asDouble loc)
  else if size = ss then evalInd I g (asSize loc)
  else .error .exit

/-- c3/lib_funcs/funcs_mixed.c:80-95 (and 215-231, 303-318): a function as a piecewise polynomial; whatever is not tagged POLYNOMIAL
is taken to be one. -/
def toPw (I : Impl K V X) (g : GF V) : C V :=
  if g.fc = .poly then do
    let v ← asCls .poly g.f
    .ok (I.leaf v)
  else asCls .pw g.f

/-- c3/lib_funcs/funcs_mixed.c:62-108 `generic_function_inner`. -/
def inner (I : Impl K V X) (a b : GF V) : C K :=
  if a.fc ≠ b.fc ∨ a.fc = .pw then do
    cassert (decide (a.fc ≠ .lin))
    cassert (decide (b.fc ≠ .lin))
    cassert (decide (a.fc ≠ .const))
    cassert (decide (b.fc ≠ .const))
    cassert (decide (a.fc ≠ .kern))
    cassert (decide (b.fc ≠ .kern))
    let ap ← toPw I a
    let bp ← toPw I b
    I.inner .pw ap bp
  else do
    let v ← asCls a.fc a.f
    let w ← asCls a.fc b.f
    I.inner a.fc v w

/-- c3/lib_funcs/funcs_mixed.c:199-243 `generic_function_prod` on functions that are not NULL. The result is allocated with the tag
of the first factor; the local variable `fc` is changed afterwards, the tag is not. -/
def prod (I : Impl K V X) (a b : GF V) : C (GF V) :=
  if a.fc ≠ b.fc ∨ a.fc = .pw then do
    let ap ← toPw I a
    let bp ← toPw I b
    let w ← I.prod .pw ap bp
    .ok ⟨a.fc, some ⟨.pw, w⟩⟩
  else do
    let v ← asCls a.fc a.f
    let w ← asCls a.fc b.f
    let u ← I.prod a.fc v w
    .ok ⟨a.fc, some ⟨a.fc, u⟩⟩

/-- c3/lib_funcs/funcs_mixed.c:275-325: both functions are there. The code of `generic_function_axpy` is not looked at. -/
def daxpby2 (I : Impl K V X) (a : K) (x : GF V) (b : K) (y : GF V) : C (GF V) :=
  if x.fc = y.fc then do
    let o ← copy x
    let o ← scale I a o
    let r ← axpy I b y o
    .ok r.2
  else if x.fc = .lin ∨ y.fc = .lin then .error .exit
  else if x.fc = .const ∨ y.fc = .const then .error .exit
  else if x.fc = .kern ∨ y.fc = .kern then .error .exit
  else do
    let ap ← toPw I x
    let bp ← toPw I y
    let w ← I.pwDaxpby a ap b bp
    .ok ⟨.pw, some ⟨.pw, w⟩⟩

/-- c3/lib_funcs/funcs_mixed.c:258-329 `generic_function_daxpby`; NULL is `none`. -/
def daxpby (I : Impl K V X) (a : K) (x : Option (GF V)) (b : K) (y : Option (GF V)) : C (GF V) :=
  match x, y with
  | none, none => .error .assertFail
  | none, some y => do let o ← copy y; scale I b o
  | some x, none => do let o ← copy x; scale I a o
  | some x, some y => daxpby2 I a x b y

/-- c3/lib_funcs/funcs_mixed.c:343-396 `generic_function_weighted_sum_pa`: the new `*z`. -/
def weightedSumPa (I : Impl K V X) (a : K) (x : GF V) (b : K) (y : GF V) (z : GF V) : C (GF V) :=
  if x.fc ≠ y.fc then do
    let r ← daxpby I a (some x) b (some y)
    cassert r.f.isSome
    .ok r
  else match x.fc with
    | .poly => if z.f.isSome then .error .exit else do
      let v ← asCls .poly x.f
      let w ← asCls .poly y.f
      let u ← I.polyDaxpby a v b w
      .ok ⟨.poly, some ⟨.poly, u⟩⟩
    | .lin => sumNodal .lin
    | .const => sumNodal .const
    | _ => daxpby I a (some x) b (some y)
where
  /-- lines 375-390: the nodal classes -/
  sumNodal (c : Fc) : C (GF V) := do
    cassert z.f.isNone
    let w ← asCls c y.f
    let w ← I.scale c b w
    let v ← asCls c x.f
    let r ← I.axpy c a v w
    .ok ⟨c, some ⟨c, r.2⟩⟩

/-- c3/lib_funcs/functions.c:677-689: one pass of the loop; the two temporaries. `daxpby` with `temp == NULL` would give the scaled
function alone. -/
def lcStep [One K] (I : Impl K V X) (fs : List (GF V)) (cs : List K) (ii : Nat) (t : Option (GF V) × Option (GF V)) :
    C (Option (GF V) × Option (GF V)) := do
  let c ← rd cs ii
  let f ← rd fs ii
  if ii % 2 = 0 then do
    let r ← daxpby I c (some f) 1 t.1
    .ok (none, some r)
  else do
    let r ← daxpby I c (some f) 1 t.2
    .ok (some r, none)

/-- c3/lib_funcs/functions.c:663-700 `generic_function_lin_comb`. For `n = 0` the first two entries are read. -/
def linComb [Zero K] [One K] (I : Impl K V X) (n : Nat) (fs : List (GF V)) (cs : List K) : C (GF V) :=
  if n = 1 then do
    let c ← rd cs 0
    let f ← rd fs 0
    daxpby I c (some f) 0 none
  else do
    let c0 ← rd cs 0
    let f0 ← rd fs 0
    let c1 ← rd cs 1
    let f1 ← rd fs 1
    let t ← daxpby I c0 (some f0) c1 (some f1)
    let r ← forR 2 n (lcStep I fs cs) (some t, none)
    match r with
    | (some t, _) => .ok t
    | (none, some t) => .ok t
    | (none, none) => .error .assertFail

/-- c3/lib_funcs/functions.c:1194-1213 `generic_function_array_axpy`: the code and the new array; the third component tells whether
the loop was left. -/
def arrayAxpy (I : Impl K V X) (n : Nat) (a : K) (x y : List (GF V)) : C (Int × List (GF V)) := do
  let r ← forN n (fun ii (s : Int × List (GF V) × Bool) =>
    if s.2.2 then .ok s else do
      let f ← rd x ii
      let g ← rd s.2.1 ii
      let q ← axpy I a f g
      let y' ← wr s.2.1 ii q.2
      .ok (q.1, y', decide (q.1 = 1))) (1, y, false)
  .ok (r.1, r.2.1)

/-- The operations on univariate functions that the matrices and trains of functions use (`C3.Ft.LOps`), given by generic functions. -/
def lops [Zero K] (I : Impl K V X) (lcPoly : List K → List (GF V) → C (GF V)) (spPoly : List (GF V) → List (GF V) → C (GF V)) :
    Ft.LOps K (GF V) where
  scale a f := daxpby I a (some f) 0 none
  prod f g := prod I f g
  daxpby a f b g := daxpby I a (some f) b (some g)
  poly f := decide (f.fc = .poly)
  lcPoly := lcPoly
  spPoly := spPoly

end C3.Gf

/-
C25, model: integrating a train over some of its coordinates (lib_clinalg/ft.c:2252-2345).
-/
import Verif.Ft.Mul

namespace C3.Ft
variable {K U X : Type} [Field K]

/-- ft.c:2272-2295, one pass of the first loop: the leading contracted cores are multiplied into a row vector `left_mult`
(`none` is NULL). `c3linalg_multiple_vec_mat` (lib_linalg/linalg.c:114-124) with `N = 1` is one transposed `dgemv`. -/
def subLeft (int : U → C K) (Q : Qma U) (left : Option (List K)) : C (List K) := do
  let mat ← qmaInt int Q
  match left with
  | none => copyK Q.ncols mat
  | some l => dgemvT Q.nrows Q.ncols mat Q.nrows l (List.replicate Q.ncols 0)

/-- ft.c:2272-2302, the first loop. Result: `ii`, `on_contract`, `left_mult`. `dims` is `dims_contract`; the condition
reads `dims_contract[on_contract]` first. The fuel is the number of contracted dimensions. -/
def subHead (int : U → C K) (ft : FT K U) (dims : List Nat) :
    Nat → Nat → Nat → Option (List K) → C (Nat × Nat × Option (List K))
  | 0, _, _, _ => .error .diverge
  | fuel + 1, ii, on, left => do
    let d ← rd dims on
    if d = ii then do
      let Q ← rd ft.cores ii
      let l ← subLeft int Q left
      if on + 1 = dims.length then pure (ii + 1, on + 1, some l)
      else subHead int ft dims fuel (ii + 1) (on + 1) (some l)
    else pure (ii, on, left)

/-- State of the second loop. -/
structure SubSt (K U : Type) where
  cores : List (Option (Qma U))
  onNew : Nat
  on : Nat
  done : Bool
  left : Option (List K)

/-- An allocated core. -/
def needCore : Option (Qma U) → C (Qma U)
  | none => .error .null
  | some Q => .ok Q

/-- ft.c:2311-2325: a contracted core is multiplied into the last new core. -/
def subContract (o : LOps K U) (int : U → C K) (ndim : Nat) (Q : Qma U) (s : SubSt K U) : C (SubSt K U) := do
  let mat ← qmaInt int Q
  if s.onNew = 0 then .error .oob
  else do
    let p ← rd s.cores (s.onNew - 1)
    let P ← needCore p
    let N ← qmam o P mat Q.ncols
    let cores ← wr s.cores (s.onNew - 1) (some N)
    pure (if s.on + 1 = ndim then { s with cores := cores, done := true } else { s with cores := cores, on := s.on + 1 })

/-- ft.c:2327-2334: the core of a remaining dimension. -/
def subCore (o : LOps K U) (left : Option (List K)) (Q : Qma U) : C (Qma U) :=
  match left with
  | none => .ok Q
  | some l => mqma o l Q 1

/-- ft.c:2310-2337, body of the second loop. -/
def subStep (o : LOps K U) (int : U → C K) (ft : FT K U) (dims : List Nat) (ii : Nat) (s : SubSt K U) : C (SubSt K U) := do
  let d ← rd dims s.on
  let Q ← rd ft.cores ii
  if d = ii ∧ s.done = false then subContract o int dims.length Q s
  else do
    let N ← subCore o s.left Q
    let cores ← wr s.cores s.onNew (some N)
    pure { s with cores := cores, onNew := s.onNew + 1, left := none }

/-- ft.c:2304-2309: entering the second loop. -/
def subStart (newdim ndim on : Nat) (left : Option (List K)) : SubSt K U :=
  if on = ndim then ⟨List.replicate newdim none, 0, on - 1, true, left⟩
  else ⟨List.replicate newdim none, 0, on, false, left⟩

/-- ft.c:2340-2343: the ranks, initialised to 1 at both ends. -/
def subRanks (newdim : Nat) (cores : List (Qma U)) : C (List Nat) :=
  forN newdim (fun ii r => do
    let Q ← rd cores ii
    let r ← wr r ii Q.nrows
    wr r (ii + 1) Q.ncols) (1 :: (List.replicate (newdim - 1) 0 ++ [1]))

/-- ft.c:2252-2345 `function_train_integrate_weighted_subset`; `size_t newdim = dim - ndim` is taken as failing its
assertion also when it would wrap around. -/
def ftIntSubset (o : LOps K U) (int : U → C K) (ft : FT K U) (dims : List Nat) : C (FT K U) := do
  cassert (decide (dims.length < ft.dim))
  let (ii, on, left) ← subHead int ft dims (dims.length + 1) 0 0 none
  let s ← forR ii ft.dim (subStep o int ft dims) (subStart (ft.dim - dims.length) dims.length on left)
  let cores ← allSome s.cores
  let ranks ← subRanks (ft.dim - dims.length) cores
  pure ⟨ft.dim - dims.length, ranks, cores, none, none, none⟩

end C3.Ft

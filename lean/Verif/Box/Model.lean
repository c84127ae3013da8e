/-
Bounding boxes (C149): c3/lib_funcs/space.c. `malloc` never fails; a NULL box is `none`. Freeing (space.c:159-166) is not modelled.
-/
import Verif.Core.Mem
import Mathlib.Algebra.Ring.Defs

namespace C3.Box

variable {K : Type}

/-- space.c:65-70 `struct BoundingBox`. -/
structure Box (K : Type) where
  dim : Nat
  lb : List K
  ub : List K

/-- space.c:79-96 `bounding_box_init_std`. -/
def initStd [Ring K] (dim : Nat) : C (Box K) := do
  let s ← forN dim (fun ii s => do
    let l ← wr s.1 ii (-1)
    let u ← wr s.2 ii 1
    .ok (l, u)) (List.replicate dim 0, List.replicate dim 0)
  .ok ⟨dim, s.1, s.2⟩

/-- space.c:107-124 `bounding_box_init`. -/
def init [Ring K] (dim : Nat) (lb ub : K) : C (Box K) := do
  let s ← forN dim (fun ii s => do
    let l ← wr s.1 ii lb
    let u ← wr s.2 ii ub
    .ok (l, u)) (List.replicate dim 0, List.replicate dim 0)
  .ok ⟨dim, s.1, s.2⟩

/-- space.c:135-152 `bounding_box_vec`. -/
def initVec [Ring K] (dim : Nat) (lb ub : List K) : C (Box K) := do
  let s ← forN dim (fun ii s => do
    let a ← rd lb ii
    let l ← wr s.1 ii a
    let b ← rd ub ii
    let u ← wr s.2 ii b
    .ok (l, u)) (List.replicate dim 0, List.replicate dim 0)
  .ok ⟨dim, s.1, s.2⟩

/-- The check `assert (b != NULL)` of every access. -/
def notNull (b : Option (Box K)) : C (Box K) :=
  match b with
  | some b => .ok b
  | none => .error .assertFail

/-- space.c:171-175 `bounding_box_get_dim`. -/
def getDim (b : Option (Box K)) : C Nat := do
  let b ← notNull b
  .ok b.dim

/-- space.c:180-184 `bounding_box_get_lb`: a reference, here the contents. -/
def getLb (b : Option (Box K)) : C (List K) := do
  let b ← notNull b
  .ok b.lb

/-- space.c:189-193 `bounding_box_get_ub`: a reference, here the contents. -/
def getUb (b : Option (Box K)) : C (List K) := do
  let b ← notNull b
  .ok b.ub

/-- space.c:198-202 `bounding_box_get_ub_dim`. -/
def getUbDim (b : Option (Box K)) (ind : Nat) : C K := do
  let b ← notNull b
  rd b.ub ind

/-- space.c:207-211 `bounding_box_set_ub_dim`. -/
def setUbDim (b : Option (Box K)) (ind : Nat) (val : K) : C (Box K) := do
  let b ← notNull b
  let u ← wr b.ub ind val
  .ok { b with ub := u }

/-- space.c:217-221 `bounding_box_get_lb_dim`. -/
def getLbDim (b : Option (Box K)) (ind : Nat) : C K := do
  let b ← notNull b
  rd b.lb ind

/-- space.c:226-230 `bounding_box_set_lb_dim`. -/
def setLbDim (b : Option (Box K)) (ind : Nat) (val : K) : C (Box K) := do
  let b ← notNull b
  let l ← wr b.lb ind val
  .ok { b with lb := l }

end C3.Box

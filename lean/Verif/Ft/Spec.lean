/-
What a function train means, independently of the algorithms: a product of matrices of univariate functions.
-/
import Verif.Ft.Model

namespace C3.Ft
open Finset
variable {K U X : Type} [Field K]

/-- Entry `(i,j)` of a core at a point (0 outside the stored range). -/
def Qma.val (e : Ev K U X) (Q : Qma U) (x : X) (i j : Nat) : K :=
  ((Q.funcs[j * Q.nrows + i]?).map (fun f => e.ev f x)).getD 0

/-- A matrix: number of columns and entries. -/
abbrev Mat (K : Type) := Nat × (Nat → Nat → K)

/-- Row `r` of the product of a chain of matrices, first column. -/
def chain : List (Mat K) → Nat → K
  | [], r => if r = 0 then 1 else 0
  | A :: rest, r => ∑ c ∈ range A.1, A.2 r c * chain rest c

/-- The matrices of the cores at a point. -/
def mats (e : Ev K U X) (cores : List (Qma U)) (x : List X) : List (Mat K) :=
  List.zipWith (fun Q xi => (Q.ncols, Q.val e xi)) cores x

/-- The value of the function represented by a list of cores:
`Σ_{i_1..i_{d-1}} G_1[0,i_1](x_1) G_2[i_1,i_2](x_2) ... G_d[i_{d-1},0](x_d)`. -/
def value (e : Ev K U X) (cores : List (Qma U)) (x : List X) : K := chain (mats e cores x) 0

/-- Entries stored completely. -/
def Qma.WF (Q : Qma U) : Prop := Q.funcs.length = Q.nrows * Q.ncols

/-- Consecutive cores fit: `r` rows first, `s` columns last. -/
inductive Fits : Nat → List (Qma U) → Nat → Prop
  | nil (r : Nat) : Fits r [] r
  | cons {s : Nat} (Q : Qma U) (Qs : List (Qma U)) : Q.WF → Fits Q.ncols Qs s → Fits Q.nrows (Q :: Qs) s

/-- Well-formed function train: at least one dimension, the cores fit together and the stored ranks are those of the
cores; boundary ranks are 1. -/
structure FT.WF (ft : FT K U) : Prop where
  dim : ft.dim = ft.cores.length
  pos : ft.cores ≠ []
  ranks : ft.ranks = 1 :: ft.cores.map (·.ncols)
  fits : Fits 1 ft.cores 1

/-- The local array of the batched evaluation is large enough: at most 1000 functions per core, or a function of another
class among the first 1001. -/
def Qma.Small (e : Ev K U X) (Q : Qma U) : Prop := ¬ (1000 < Q.nrows * Q.ncols ∧ (Q.funcs.take 1001).all e.poly = true)

/-- Scratch spaces have their stated size (whatever their contents). -/
def SpOk (s : Option (Space K)) : Prop := ∀ sp, s = some sp → sp.vals.length = sp.num * sp.size

structure FT.Scratch (ft : FT K U) : Prop where
  s1 : SpOk ft.sp1
  s2 : SpOk ft.sp2
  s3 : SpOk ft.sp3

end C3.Ft

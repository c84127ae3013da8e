/-
What a discrete tensor train means, independently of the algorithms.
-/
import Verif.Tt.Model

namespace C3.Tt
open Finset
variable {K : Type} [CommRing K]

/-- Entry `(i,e,j)` of a 3-dimensional tensor stored column-major. -/
def T3.get (t : T3 K) (i e j : Nat) : K := t.vals.getD (i + e * t.n0 + j * t.n0 * t.n1) 0

/-- All values stored. -/
def T3.WF (t : T3 K) : Prop := t.vals.length = t.n0 * t.n1 * t.n2

/-- Row `i` of the product of the matrices `G_k[:,e_k,:], G_{k+1}[:,e_{k+1},:], ...`, first column; `s k` are the ranks. -/
def tail (s : Nat → Nat) (G : Nat → Nat → Nat → Nat → K) : Nat → List Nat → Nat → K
  | _, [], i => if i = 0 then 1 else 0
  | k, e :: es, i => ∑ c ∈ range (s (k + 1)), G k i e c * tail s G (k + 1) es c

/-- Rank `k` and size of mode `k`. -/
def TT.rk (t : TT K) (k : Nat) : Nat := t.ranks.getD k 0
def TT.nv (t : TT K) (k : Nat) : Nat := t.nvals.getD k 0

/-- Entry of core `k`. -/
def TT.G (t : TT K) (k i e j : Nat) : K := ((t.cores[k]?).map (fun Q => Q.get i e j)).getD 0

/-- The element of the represented tensor at a multi-index:
`Σ_{c_1..c_{d-1}} G_1[0,e_1,c_1] G_2[c_1,e_2,c_2] ... G_d[c_{d-1},e_d,0]`. -/
def TT.elem (t : TT K) (es : List Nat) : K := tail t.rk t.G 0 es 0

/-- Well-formed train: sizes and ranks stored are those of the cores, boundary ranks are 1, no empty mode or rank. -/
structure TT.WF (t : TT K) : Prop where
  pos : 0 < t.dim
  ncores : t.cores.length = t.dim
  nranks : t.ranks.length = t.dim + 1
  nnvals : t.nvals.length = t.dim
  first : t.rk 0 = 1
  last : t.rk t.dim = 1
  rpos : ∀ k ≤ t.dim, 0 < t.rk k
  core : ∀ k Q, t.cores[k]? = some Q → Q.WF ∧ Q.n0 = t.rk k ∧ Q.n1 = t.nv k ∧ Q.n2 = t.rk (k + 1)

/-- A multi-index of the train: one index per mode, each in range. -/
structure TT.Ix (t : TT K) (es : List Nat) : Prop where
  len : es.length = t.dim
  lt : ∀ k < t.dim, es.getD k 0 < t.nv k

/-- Sum over all multi-indices of the given sizes. -/
def msum : List Nat → (List Nat → K) → K
  | [], f => f []
  | n :: ns, f => ∑ e ∈ range n, msum ns (fun es => f (e :: es))

/-- Product of the weights of a multi-index, starting at mode `k`. -/
def wprod (w : List (List K)) : Nat → List Nat → K
  | _, [] => 1
  | k, e :: es => (w.getD k []).getD e 0 * wprod w (k + 1) es

end C3.Tt

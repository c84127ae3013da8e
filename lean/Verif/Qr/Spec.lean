/- What the factorizations promise, in terms of the entries of the arrays only. -/
import Mathlib.Analysis.InnerProductSpace.Basic

namespace C3.Qr
open Finset
variable {E : Type} [NormedAddCommGroup E] [InnerProductSpace ℝ E]

/-- The `m` vectors of `len` functions stored at positions `pos v i` are orthonormal. -/
def Orthonormal (pos : Nat → Nat → Nat) (m len : Nat) (Q : List E) : Prop :=
  ∀ v < m, ∀ w < m, ∑ i ∈ range len, inner ℝ (Q.getD (pos v i) 0) (Q.getD (pos w i) 0) = if v = w then (1 : ℝ) else 0

/-- The coefficient of vector `j` with respect to vector `k` vanishes for `k` after `j`. -/
def Triangular (rpos : Nat → Nat → Nat) (m : Nat) (R : List ℝ) : Prop := ∀ j < m, ∀ k < m, j < k → R.getD (rpos j k) 0 = 0

/-- Component `i` of vector `j` of the product of the factors. -/
noncomputable def prodEntry (pos rpos : Nat → Nat → Nat) (m : Nat) (Q : List E) (R : List ℝ) (j i : Nat) : E :=
  ∑ k ∈ range m, R.getD (rpos j k) 0 • Q.getD (pos k i) 0

/-- Squared distance between vector `j` of the array and of the product. -/
noncomputable def distSq (pos rpos : Nat → Nat → Nat) (m len : Nat) (A Q : List E) (R : List ℝ) (j : Nat) : ℝ :=
  ∑ i ∈ range len, ‖A.getD (pos j i) 0 - prodEntry pos rpos m Q R j i‖ ^ 2

end C3.Qr

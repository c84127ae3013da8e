/- Orthonormal basis and norm of piecewise constant elements (c3/lib_funcs/constelm.c). Real numbers, exact. -/
import Verif.Pc.Model
import Mathlib.Analysis.Real.Sqrt

namespace C3.Pc

/-- constelm.c:1181-1185 `const_elem_exp_norm`. -/
noncomputable def norm (tol : ℝ) (f : CE ℝ) : C ℝ := do
  let v ← inner tol f f
  pure (Real.sqrt v)

/-- constelm.c:1490-1503, 1525-1533: the length of the cell of node `ii`. -/
noncomputable def cellLen (num : Nat) (nodes : List ℝ) (ii : Nat) : C ℝ :=
  if ii = 0 then do
    let b ← rd nodes 1
    let a ← rd nodes 0
    pure ((b - a) / 2)
  else if ii = num - 1 then do
    let b ← rd nodes ii
    let a ← rd nodes (ii - 1)
    pure ((b - a) / 2)
  else do
    let b ← rd nodes ii
    let a ← rd nodes (ii - 1)
    let c ← rd nodes (ii + 1)
    pure ((b - a) / 2 + (c - b) / 2)

/-- constelm.c:1486-1508: function number `ii`; beyond the number of nodes the first coefficient is `tiny` (`1e-20`). -/
noncomputable def orthFun (tiny : ℝ) (num : Nat) (nodes : List ℝ) (ii : Nat) : C (CE ℝ) := do
  cassert (decide (num > 1))
  if ii < num then do
    let d ← cellLen num nodes ii
    let q ← Lin.dv 1 d
    let c ← wr (List.replicate num 0) ii (Real.sqrt q)
    pure ⟨num, nodes, c⟩
  else do
    let c ← wr (List.replicate num 0) 0 tiny
    pure ⟨num, nodes, c⟩

/-- constelm.c:1472-1538 `const_elem_exp_orth_basis` on the grid `nodes` (given, or `linspace(lb,ub,n)` in the adaptive case, where
the number of nodes is `n`). -/
noncomputable def orthBasis (tiny : ℝ) (n num : Nat) (nodes : List ℝ) : C (List (CE ℝ)) :=
  forN n (fun ii fs => do
    let f ← orthFun tiny num nodes ii
    pure (fs ++ [f])) []

end C3.Pc

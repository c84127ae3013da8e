/- Orthonormal basis of linear elements (c3/lib_funcs/linelm.c). Real numbers, exact. -/
import Verif.Lin.Model
import Mathlib.Analysis.Real.Sqrt

namespace C3.Lin

/-- linelm.c:1598-1602 `lin_elem_exp_norm`. -/
noncomputable def norm (tol : ℝ) (f : LE ℝ) : C ℝ := do
  let v ← inner tol f f
  pure (Real.sqrt v)

/-- linelm.c:2253-2260, 2282-2285: the starting functions; on a fixed grid with fewer nodes than functions the remaining ones
stay zero (`f[ii]->coeff[ii]` is only set in range). -/
def orthInit (num : Nat) (nodes : List ℝ) (ii : Nat) : LE ℝ := ⟨num, nodes, (List.replicate num 0).set ii 1⟩

/-- linelm.c:2267-2270, 2290-2293: the inner loop. -/
noncomputable def orthSweep (tol : ℝ) (n ii : Nat) (fs : List (LE ℝ)) : C (List (LE ℝ)) :=
  forR (ii + 1) n (fun jj fs => do
    let fi ← rd fs ii
    let fj ← rd fs jj
    let proj ← inner tol fi fj
    let h ← axpy tol (-proj) fi fj
    wr fs jj h) fs

/-- linelm.c:2264-2272 (`thr = some 1e-200`) and 2287-2295 (`thr = none`, no threshold): step `ii`. -/
noncomputable def orthStep (tol : ℝ) (thr : Option ℝ) (n ii : Nat) (fs : List (LE ℝ)) : C (List (LE ℝ)) := do
  let fi ← rd fs ii
  let nrm ← norm tol fi
  if thr.elim true (fun t => decide (nrm > t)) then do
    let inv ← dv 1 nrm
    let g ← scale inv fi
    let fs ← wr fs ii g
    orthSweep tol n ii fs
  else pure fs

/-- linelm.c:2243-2299 `lin_elem_exp_orth_basis` on the grid `nodes` (given, or `linspace(lb,ub,n)` in the adaptive case). -/
noncomputable def orthBasis (tol : ℝ) (thr : Option ℝ) (n num : Nat) (nodes : List ℝ) : C (List (LE ℝ)) :=
  forN n (orthStep tol thr n) ((List.range n).map (orthInit num nodes))

end C3.Lin

/-
The diffusion operator by alternating sweeps: lib_clinalg/diffusion.c:54-419.

`der` is `generic_function_deriv`, `ax f g` is `generic_function_axpy(1.0,f,g)`. The pairs of calls of `generic_function_kronh` and
`generic_function_kronh2` on one argument are the products `matKron` and `kronMat` of the model of lib_clinalg/qmarray.c (the
same two calls); a pointer `mat+offset` is the rest of the list. Sums over whole arrays are `axpyQ`.
-/
import Verif.Dmrg.Props
import Verif.Dif.Main

namespace C3.Dmrg
open C3.Ft C3.Round C3.Dif
variable {U : Type}

/-- diffusion.h `struct DmDiff`. -/
structure DmDiff (U : Type) where
  A : FT ℝ U
  F : FT ℝ U
  dA : List (Qma U)
  dF : List (Qma U)
  ddF : List (Qma U)

/-- diffusion.c:54-94 `dmrg_diffusion_midleft`; the two halves of `out` are put side by side. -/
noncomputable def midLeft (o : DmOps U) (ax : U → U → C U) (dA A ddF dF F : Qma U) (mat : List ℝ) (r : Nat) : C (Qma U) := do
  let offset := r * A.nrows * F.nrows
  let out1 ← matKron o.lin r mat A F
  let temp1 ← matKron o.lin r (mat.drop offset) dA dF
  let temp2 ← matKron o.lin r (mat.drop offset) A ddF
  let out2 ← matKron o.lin r (mat.drop offset) A F
  let out1 ← axpyQ ax temp1 out1
  let out1 ← axpyQ ax temp2 out1
  stackh out1 out2

/-- diffusion.c:97-139 `dmrg_diffusion_lastleft`. -/
noncomputable def lastLeft (o : DmOps U) (ax : U → U → C U) (dA A ddF dF F : Qma U) (mat : List ℝ) (r : Nat) : C (Qma U) := do
  cassert (decide (A.ncols = F.ncols))
  let offset := r * A.nrows * F.nrows
  let out ← matKron o.lin r mat A F
  let temp ← matKron o.lin r (mat.drop offset) dA dF
  let temp2 ← matKron o.lin r (mat.drop offset) A ddF
  let out ← axpyQ ax temp out
  axpyQ ax temp2 out

/-- diffusion.c:151-165, 223-237: one half of the rows of `mat`; `off` is 0 or the number of columns of `A`. The C code fills
both halves in the same loop. -/
def halfMat (r ac fc off : Nat) (mat : List ℝ) : C (List ℝ) :=
  forN r (fun ii => forN ac (fun jj => forN fc (fun kk m => do
    let v ← rd mat (kk + (jj + off) * fc + ii * (2 * ac * fc))
    wr m (kk + jj * fc + ii * ac * fc) v))) (List.replicate (r * ac * fc) 0)

/-- diffusion.c:141-210 `dmrg_diffusion_midright`; the two halves of `out` are put on top of each other. -/
noncomputable def midRight (o : DmOps U) (ax : U → U → C U) (dA A ddF dF F : Qma U) (mat : List ℝ) (r : Nat) : C (Qma U) := do
  let mat1 ← halfMat r A.ncols F.ncols 0 mat
  let mat2 ← halfMat r A.ncols F.ncols A.ncols mat
  let t1 ← kronMat o.lin r mat1 A F
  let t2 ← kronMat o.lin r mat1 dA dF
  let t3 ← kronMat o.lin r mat1 A ddF
  let t4 ← kronMat o.lin r mat2 A F
  let t2 ← axpyQ ax t3 t2
  let t2 ← axpyQ ax t4 t2
  stackv t1 t2

/-- diffusion.c:213-274 `dmrg_diffusion_firstright`. -/
noncomputable def firstRight (o : DmOps U) (ax : U → U → C U) (dA A ddF dF F : Qma U) (mat : List ℝ) (r : Nat) : C (Qma U) := do
  cassert (decide (A.nrows = F.nrows))
  let mat1 ← halfMat r A.ncols F.ncols 0 mat
  let mat2 ← halfMat r A.ncols F.ncols A.ncols mat
  let out ← kronMat o.lin r mat2 A F
  let t2 ← kronMat o.lin r mat1 dA dF
  let t3 ← kronMat o.lin r mat1 A ddF
  let out ← axpyQ ax t2 out
  axpyQ ax t3 out

/-- diffusion.c:285-287, 322-325: the blocks of the first or last core, the function and the derivative. -/
noncomputable def endBlocks (o : DmOps U) (ax : U → U → C U) (dd : DmDiff U) (core : Nat) : C (Qma U × Qma U) := do
  let A ← rd dd.A.cores core
  let F ← rd dd.F.cores core
  let dA ← rd dd.dA core
  let dF ← rd dd.dF core
  let ddF ← rd dd.ddF core
  let t1 ← kron o.lin.toOps A F
  let t2 ← kron o.lin.toOps dA dF
  let t3 ← kron o.lin.toOps A ddF
  let t2 ← axpyQ ax t3 t2
  pure (t1, t2)

/-- diffusion.c:277-349 `dmrg_diffusion_support`. -/
noncomputable def difSup (o : DmOps U) (ax : U → U → C U) (dd : DmDiff U) : Sup U := fun left core r mat =>
  let mid (f : (DmOps U) → (U → U → C U) → Qma U → Qma U → Qma U → Qma U → Qma U → List ℝ → Nat → C (Qma U)) : C (Qma U) := do
    let A ← rd dd.A.cores core
    let F ← rd dd.F.cores core
    let dA ← rd dd.dA core
    let dF ← rd dd.dF core
    let ddF ← rd dd.ddF core
    match mat with
    | none => .error .null
    | some m => f o ax dA A ddF dF F m r
  if left then
    if core = 0 then do
      let b ← endBlocks o ax dd 0
      stackh b.2 b.1
    else if core < dd.A.dim - 1 then mid midLeft
    else mid lastLeft
  else
    if core = dd.A.dim - 1 then do
      let b ← endBlocks o ax dd core
      stackv b.1 b.2
    else if core > 0 then mid midRight
    else mid firstRight

/-- diffusion.c:367-419 `dmrg_diffusion`; the three arrays of derivatives are made one after the other. -/
noncomputable def dmrgDiffusion (o : DmOps U) (der : U → C U) (ax : U → U → C U) (a f : FT ℝ U) (thr delta : ℝ) (maxSweeps : Nat)
    (eps : ℝ) : C (FT ℝ U) := do
  let dA ← collect f.dim (fun ii => do
    let Q ← rd a.cores ii
    mapQ der Q)
  let dF ← collect f.dim (fun ii => do
    let Q ← rd f.cores ii
    mapQ der Q)
  let ddF ← collect f.dim (fun ii => do
    let Q ← rd dF ii
    mapQ der Q)
  let guess ← ftCopy f
  let w ← dmrgApprox o (difSup o ax ⟨a, f, dA, dF, ddF⟩) guess thr delta maxSweeps eps
  pure w.na

end C3.Dmrg

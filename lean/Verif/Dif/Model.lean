/-
Derivatives of function trains: gradient, Jacobian, Hessian (lib_clinalg/ft.c), Laplace and diffusion operators
(lib_clinalg/diffusion.c), operators applied to each univariate function. Deep copies of functions are the identity.
-/
import Verif.Ft.Mul

namespace C3.Dif
open C3.Ft
variable {K U X : Type} [Field K]

/-- qmarray.c:175-191 `qmarray_operate_elements` (operator given), 3292-3303 `qmarray_deriv`, 3313-3321 `qmarray_dderiv`,
3331-3339 `qmarray_dderiv_periodic`: apply a routine to each function. -/
def mapQ (op : U → C U) (a : Qma U) : C (Qma U) := do
  let fs ← collect (a.nrows * a.ncols) (fun ii => do
    let f ← rd a.funcs ii
    op f)
  pure ⟨a.nrows, a.ncols, fs⟩

/-- qmarray.c:1730-1739 `qmarray_axpy`: the new `y`; `ax f g` is `generic_function_axpy(1.0,f,g)`. -/
def axpyQ (ax : U → U → C U) (x y : Qma U) : C (Qma U) := do
  cassert (decide (x.nrows = y.nrows))
  cassert (decide (x.ncols = y.ncols))
  let fs ← forN (x.nrows * x.ncols) (fun ii fs => do
    let f ← rd x.funcs ii
    let g ← rd fs ii
    let h ← ax f g
    wr fs ii h) y.funcs
  pure ⟨y.nrows, y.ncols, fs⟩

/-- qmarray.c:613-622 `qmarray_zeros`; `zero` is `generic_function_constant(0.0,opts->fc,opts->aopts)`. -/
def zerosQ (zero : C U) (n m : Nat) : C (Qma U) := do
  let fs ← collect (n * m) (fun _ => zero)
  pure ⟨n, m, fs⟩

/-- ft.c:4230-4233, 4342-4346, 4385-4388: a copy of the train with one core replaced by the array of derivatives. -/
def derivCore (op : U → C U) (ft : FT K U) (ii : Nat) : C (FT K U) := do
  let g ← ftCopy ft
  let Q ← rd ft.cores ii
  let Q' ← mapQ op Q
  let cs ← wr g.cores ii Q'
  pure { g with cores := cs }

/-- ft.c:4224-4236 `function_train_gradient` (`op` is `generic_function_deriv`), 4379-4391 `function_train_hessian_diag`
(`generic_function_dderiv`), 4401-4413 `function_train_hessian_diag_periodic`. -/
def gradient (op : U → C U) (ft : FT K U) : C (List (FT K U)) :=
  collect ft.dim (derivCore op ft)

/-- ft.c:4336-4351 `ft1d_array_jacobian`. -/
def jacobian (op : U → C U) (fta : List (FT K U)) : C (List (FT K U)) := do
  let f0 ← rd fta 0
  let l ← forN f0.dim (fun ii => forN fta.length (fun jj l => do
    let f ← rd fta jj
    let g ← derivCore op f ii
    wr l (ii * fta.length + jj) (some g))) (List.replicate (fta.length * f0.dim) none)
  allSome l

/-- ft.c:4362-4370 `function_train_hessian`. -/
def hessian (op : U → C U) (ft : FT K U) : C (List (FT K U)) := do
  let g ← gradient op ft
  jacobian op g

/-- ft.c:258-272 `function_train_operate`: `ranks[0]` stays at the zero of the allocation. -/
def operate (op : Nat → U → C U) (ft : FT K U) : C (FT K U) := do
  let r ← rd ft.ranks 1
  let rk ← wr (List.replicate (ft.dim + 1) 0) 1 r
  let cs ← collect ft.dim (fun ii => do
    let Q ← rd ft.cores ii
    mapQ (op ii) Q)
  let rk ← forN ft.dim (fun ii rk => do
    let r ← rd ft.ranks (ii + 1)
    wr rk (ii + 1) r) rk
  pure ⟨ft.dim, rk, cs, none, none, none⟩

/-- diffusion.c:470-483, 548-558, 618-628, 688-698: one interior core `[A 0; B A]`. -/
def blockStep (A B : Nat → C (Qma U)) (zero : Nat → C U) (ii : Nat) (t : Bld U) : C (Bld U) := do
  let a ← A ii
  let b ← B ii
  let z ← zerosQ (zero ii) a.nrows a.ncols
  let c1 ← stackv a b
  let c2 ← stackv z a
  let Q ← stackh c1 c2
  let cs ← wr t.cores ii (some Q)
  let rk ← wr t.ranks (ii + 1) Q.ncols
  pure ⟨rk, cs⟩

/-- diffusion.c:461-463, 543-544: the first core `[B A]`. -/
def blockFirst (A B : Nat → C (Qma U)) (t : Bld U) : C (Bld U) := do
  let b ← B 0
  let a ← A 0
  let Q ← stackh b a
  let cs ← wr t.cores 0 (some Q)
  let rk ← wr t.ranks 1 Q.ncols
  pure ⟨rk, cs⟩

/-- diffusion.c:485-491, 564-566: the last core `[A; B]`. -/
def blockLast (A B : Nat → C (Qma U)) (ii : Nat) (t : Bld U) : C (Bld U) := do
  let a ← A ii
  let b ← B ii
  let Q ← stackv a b
  let cs ← wr t.cores ii (some Q)
  let rk ← wr t.ranks (ii + 1) Q.ncols
  pure ⟨rk, cs⟩

/-- diffusion.c:434-491, 523-566: the train with blocks `A` (the function) and `B` (its derivative in one variable), `r0` and
`rd` the ranks set at the beginning. -/
def blockTrain (dim r0 rd' : Nat) (A B : Nat → C (Qma U)) (zero : Nat → C U) : C (FT K U) := do
  let rk ← wr (List.replicate (dim + 1) 0) 0 r0
  let rk ← wr rk dim rd'
  let t ← blockFirst A B ⟨rk, List.replicate dim none⟩
  let t ← forR 1 (dim - 1) (blockStep A B zero) t
  let t ← blockLast A B (dim - 1) t
  ftDone dim t.ranks t.cores

/-- diffusion.c:653-709 `exact_laplace_op`, and with the same operator in each dimension 517-569 `exact_laplace`
(`generic_function_dderiv`, on a copy of the train) and 586-638 `exact_laplace_periodic`. -/
def laplace (dd : Nat → U → C U) (zero : Nat → C U) (f : FT K U) : C (FT K U) := do
  let r0 ← rd f.ranks 0
  let rl ← rd f.ranks f.dim
  let ddf ← collect f.dim (fun ii => do
    let Q ← rd f.cores ii
    mapQ (dd ii) Q)
  blockTrain f.dim r0 rl (fun ii => rd f.cores ii) (fun ii => rd ddf ii) zero

/-- The routines used by the diffusion operator. -/
structure DOps (K U : Type) extends Ops K U where
  deriv : U → C U
  axpy : U → U → C U
  zero : Nat → C U

/-- diffusion.c:428-502 `exact_diffusion`. -/
def diffusion (o : DOps K U) (a f : FT K U) : C (FT K U) := do
  let da ← collect a.dim (fun ii => do
    let Q ← rd a.cores ii
    mapQ o.deriv Q)
  let df ← collect a.dim (fun ii => do
    let Q ← rd f.cores ii
    mapQ o.deriv Q)
  let ddf ← collect a.dim (fun ii => do
    let Q ← rd df ii
    mapQ o.deriv Q)
  blockTrain a.dim 1 1
    (fun ii => do
      let x ← rd a.cores ii
      let y ← rd f.cores ii
      kron o.toOps x y)
    (fun ii => do
      let x ← rd a.cores ii
      let y ← rd ddf ii
      let l1 ← kron o.toOps x y
      let x ← rd da ii
      let y ← rd df ii
      let l2 ← kron o.toOps x y
      axpyQ o.axpy l1 l2) o.zero

end C3.Dif

/-
Linear transforms and probability densities of c3/lib_probability/probability.c. Matrices are column-major buffers. Fields that the code leaves
uninitialised are `none` and reading them is `Err.ub`; a NULL pointer is `none` and using it is `Err.null`. Division by zero is `Err.ub`
(in C: an infinity). LAPACK's `dtrtri` and `dpotrf` are arguments with a contract (`TriInv`, `Chol` in `LtSpec`). Freeing and printing are
left out.
-/
import Verif.Core.Sum
import Verif.Lin.Model
import Verif.Serial.Model

namespace C3.Prob

open C3.Lin (dv)
open C3.Serial

/-- probability.h:63 `enum lt_matrix_type`. -/
inductive MType | LT | SYMMETRIC | GEN
  deriving DecidableEq

/-- probability.h:68-85 `struct LinearTransform`: `y = A x + b`. `inv` is the pair `Ainv`, `binv`, which are allocated together. -/
structure LinT (K : Type) where
  A : List K
  b : List K
  det : Option K
  inv : Option (List K × List K)
  detinv : Option K
  dimin : Nat
  dimout : Nat
  mt : Option MType
  mti : Option MType
  deriving DecidableEq

/-- Reading a field that may be uninitialised. -/
def field {α : Type} : Option α → C α
  | none => .error .ub
  | some a => pure a

/-- Using a pointer that may be NULL. -/
def ptr {α : Type} : Option α → C α
  | none => .error .null
  | some a => pure a

variable {K : Type} [Field K]

/-- `memmove(dst,src,n*sizeof(double))` into a fresh block of `n` zeros. -/
def blk (n : Nat) (src : List K) : C (List K) :=
  forN n (fun i d => do
    let v ← rd src i
    wr d i v) (List.replicate n 0)

/-- A copy of the argument, or zeros if it is NULL. -/
def blkOpt (n : Nat) : Option (List K) → C (List K)
  | none => pure (List.replicate n 0)
  | some a => blk n a

/-- probability.c:605-633 `linear_transform_alloc`. The determinant is only stored together with a matrix; the matrix types never are. -/
def ltAlloc (dimin dimout : Nat) (A b : Option (List K)) (det : K) : C (LinT K) := do
  let a ← blkOpt (dimin * dimout) A
  let c ← blkOpt dimout b
  pure ⟨a, c, if A.isSome then some det else none, none, none, dimin, dimout, none, none⟩

/-- probability.c:642-656 `linear_transform_copy`; `det` is passed by value, so that it must have been set. -/
def ltCopy (lt : LinT K) : C (LinT K) := do
  let det ← field lt.det
  let n ← ltAlloc lt.dimin lt.dimout (some lt.A) (some lt.b) det
  match lt.inv with
  | none => pure n
  | some i => do
    let a ← blk (lt.dimin * lt.dimout) i.1
    let b ← blk lt.dimin i.2
    let dti ← field lt.detinv
    pure { n with inv := some (a, b), detinv := some dti }

/-- probability.c:690-701 `linear_transform_apply`: `cblas_dgemv` with `beta = 1` on a copy of `b`. -/
def ltApply (dimx dimb : Nat) (A x b : List K) : C (List K) := do
  let y ← blk dimb b
  forN dimb (fun i y => do
    let s ← forN dimx (fun j s => do
      let a ← rd A (j * dimb + i)
      let v ← rd x j
      pure (s + a * v)) 0
    let w ← rd y i
    wr y i (s + w)) y

/-- `cblas_dtrmv(CblasColMajor,CblasLower,CblasNoTrans,CblasNonUnit,n,A,n,x,1)`: `x := L x` in place, last row first. -/
def dtrmvL (n : Nat) (A x : List K) : C (List K) :=
  forN n (fun k x => do
    let s ← forN (n - k) (fun j s => do
      let a ← rd A (j * n + (n - 1 - k))
      let v ← rd x j
      pure (s + a * v)) 0
    wr x (n - 1 - k) s) x

/-- probability.c:724-729: minus the offset, and zeros in the strict upper triangle. -/
def ltNeg (n : Nat) (b binv Ainv : List K) : C (List K × List K) :=
  forN n (fun ii st => do
    let v ← rd b ii
    let c ← wr st.1 ii (-v)
    let a ← forN ii (fun jj a => wr a (ii * n + jj) 0) st.2
    pure (c, a)) (binv, Ainv)

/-- probability.c:708-751 `linear_transform_invert`; `trtri` is LAPACK's `dtrtri` (its code `info` is only printed). Other types of matrices
are only reported. -/
def ltInvert [LinearOrder K] (trtri : Nat → List K → List K) (lt : LinT K) : C (LinT K) :=
  match lt.inv with
  | some _ => pure lt
  | none => do
    let mt ← field lt.mt
    if mt = .LT then do
      let a ← blk (lt.dimin * lt.dimout) lt.A
      let a := trtri lt.dimout a
      let s ← ltNeg lt.dimout lt.b (List.replicate lt.dimin 0) a
      let binv ← dtrmvL lt.dimout s.2 s.1
      let det ← field lt.det
      let dti ← dv 1 det
      pure { lt with inv := some (s.2, binv), detinv := some dti, mti := some .LT }
    else pure lt

/-- probability.h:87-99 `struct ProbabilityDensity`; the function train is represented by the dimension, the bounds of its cores and its value,
gradient and Hessian as functions (function trains themselves are the subject of `Verif.Ft`). -/
structure Dens (K : Type) where
  dim : Nat
  lb : List K
  ub : List K
  f : List K → K
  g : List K → List K
  h : List K → List K
  lt : Option (LinT K)
  transform : Int

/-- probability.c:1230-1242 (and 1250-1262): is the point within the bounds of the base density. -/
def inBox [LinearOrder K] (d : Nat) (lb ub x : List K) : C Bool :=
  forN d (fun ii good =>
    if good then do
      let v ← rd x ii
      let l ← rd lb ii
      if v < l then pure false
      else do
        let u ← rd ub ii
        pure (decide (¬ v > u))
    else pure false) true

/-- probability.c:1214-1271 `probability_density_eval`; the second component is the density with the inverse kept in it. -/
def densEval [LinearOrder K] (trtri : Nat → List K → List K) (p : Dens K) (x : List K) : C (K × Dens K) :=
  if p.transform = 1 then do
    let lt ← ptr p.lt
    let lt ← ltInvert trtri lt
    let iv ← ptr lt.inv
    let t ← ltApply lt.dimout lt.dimin iv.1 x iv.2
    let good ← inBox p.dim p.lb p.ub t
    if good then do
      let di ← field lt.detinv
      pure (p.f t * |di|, { p with lt := some lt })
    else pure (0, { p with lt := some lt })
  else do
    let good ← inBox p.dim p.lb p.ub x
    pure (if good then p.f x else 0, p)

/-- `cblas_dgemv(CblasColMajor,CblasTrans,d,d,val,A,d,x,1,0.0,y,1)` into a fresh block. -/
def dgemvTS (d : Nat) (val : K) (A x : List K) : C (List K) :=
  forN d (fun j y => do
    let s ← forN d (fun i s => do
      let a ← rd A (j * d + i)
      let v ← rd x i
      pure (s + a * v)) 0
    wr y j (val * s)) (List.replicate d 0)

/-- probability.c:1281-1325 `probability_density_log_gradient_eval`; other values of `transform` return NULL. -/
def densLogGrad [LinearOrder K] (trtri : Nat → List K → List K) (p : Dens K) (x : List K) : C (Option (List K) × Dens K) :=
  if p.transform = 0 then do
    let e ← densEval trtri p x
    let val ← dv 1 e.1
    let out ← forN p.dim (fun ii o => do
      let v ← rd o ii
      wr o ii (v * val)) (p.g x)
    pure (some out, e.2)
  else if p.transform = 1 then do
    let lt ← ptr p.lt
    let lt ← ltInvert trtri lt
    let iv ← ptr lt.inv
    let t ← ltApply lt.dimout lt.dimin iv.1 x iv.2
    let val ← dv 1 (p.f t)
    let out ← dgemvTS p.dim val iv.1 (p.g t)
    pure (some out, { p with lt := some lt })
  else pure (none, p)

/-- probability.c:1352-1359 the Hessian of the logarithm without transform. -/
def logHess0 (d : Nat) (val : K) (g h : List K) : C (List K) :=
  forN d (fun ii o =>
    forN d (fun jj o => do
      let a ← rd g ii
      let b ← rd g jj
      let c ← rd h (jj * d + ii)
      wr o (jj * d + ii) (-(val ^ 2) * a * b + val * c)) o) (List.replicate (d * d) 0)

/-- probability.c:1390-1417 the Hessian of the logarithm with a transform: `n` is `dimout`, `d` the dimension of the function train. -/
def logHess1 (n d : Nat) (val : K) (Ainv g h : List K) : C (List K) := do
  let gp ← forN n (fun ii o => do
    let s ← forN n (fun i s => do
      let u ← rd g i
      let v ← rd Ainv (n * ii + i)
      pure (s + u * v)) 0
    wr o ii s) (List.replicate n 0)
  let r ← forN n (fun ii (st : List K × List K) => do
    let t ← forN d (fun j y => do
      let s ← forN d (fun i s => do
        let a ← rd h (j * d + i)
        let v ← rd Ainv (ii * n + i)
        pure (s + a * v)) 0
      wr y j (val * s)) st.2
    let o ← forN n (fun jj o => do
      let a ← rd gp jj
      let b ← rd gp ii
      let s ← forN n (fun i s => do
        let u ← rd t i
        let v ← rd Ainv (jj * n + i)
        pure (s + u * v)) 0
      wr o (jj * n + ii) (-a * b * val ^ 2 + s)) st.1
    pure (o, t)) (List.replicate (n * n) 0, List.replicate n 0)
  pure r.1

/-- probability.c:1336-1434 `probability_density_log_hessian_eval`. -/
def densLogHess [LinearOrder K] (trtri : Nat → List K → List K) (p : Dens K) (x : List K) : C (Option (List K) × Dens K) :=
  if p.transform = 0 then do
    let e ← densEval trtri p x
    let val ← dv 1 e.1
    let out ← logHess0 p.dim val (p.g x) (p.h x)
    pure (some out, e.2)
  else if p.transform = 1 then do
    let lt ← ptr p.lt
    let lt ← ltInvert trtri lt
    let iv ← ptr lt.inv
    let t ← ltApply lt.dimout lt.dimin iv.1 x iv.2
    let val ← dv 1 (p.f t)
    let out ← logHess1 lt.dimout p.dim val iv.1 (p.g t) (p.h t)
    pure (some out, { p with lt := some lt })
  else pure (none, p)

/-- ft.c:1573-1595 `function_train_rankone` called with the options of fapprox.c:341-359 `multi_approx_opts_alloc`, as far as the options are
concerned: in every dimension `aopt->fc` is read. `opts` are the `dim` pointers. -/
def rankoneOpts {α : Type} (dim : Nat) (opts : List (Option α)) : C (List α) :=
  forN dim (fun k l => do
    let o ← rd opts k
    let a ← ptr o
    pure (l ++ [a])) []

/-- probability.c:1031-1072 `probability_density_standard_normal`: `fopts` comes from `multi_approx_opts_alloc`, all of whose pointers are NULL,
and `qmopts` is never stored in it. `build` makes the density from the options. -/
def stdNormal {α : Type} (dim : Nat) (build : List α → Dens K) : C (Dens K) := do
  let o ← rankoneOpts dim (List.replicate dim none)
  pure (build o)

/-- probability.c:1097-1116: mean and Cholesky factor are stored, the determinant is the product of the diagonal and the strict upper triangle
is set to zero; `potrf` is LAPACK's `dpotrf` (its code is only printed). -/
def mvnLt (potrf : Nat → List K → List K) (dim : Nat) (mean cov : List K) : C (LinT K) := do
  let lt ← ltAlloc dim dim none none (0 : K)
  let b ← forN dim (fun i d => do
    let v ← rd mean i
    wr d i v) lt.b
  let A ← forN (dim * dim) (fun i d => do
    let v ← rd cov i
    wr d i v) lt.A
  let A := potrf dim A
  let r ← forN dim (fun ii (st : K × List K) => do
    let v ← rd st.2 (ii * dim + ii)
    let a ← forN ii (fun jj a => wr a (ii * dim + jj) 0) st.2
    pure (st.1 * v, a)) (1, A)
  pure { lt with b := b, A := r.2, det := some r.1, mt := some .LT }

/-- probability.c:1085-1119 `probability_density_mvn` on top of a given standard normal density. -/
def mvnOn (potrf : Nat → List K → List K) (base : Dens K) (dim : Nat) (mean cov : List K) : C (Dens K) := do
  let lt ← mvnLt potrf dim mean cov
  pure { base with transform := 1, lt := some lt }

/-- probability.c:1085-1119 `probability_density_mvn`. -/
def mvn {α : Type} (potrf : Nat → List K → List K) (build : List α → Dens K) (dim : Nat) (mean cov : List K) : C (Dens K) := do
  let base ← stdNormal dim build
  mvnOn potrf base dim mean cov

/-- probability.c:1128-1148 `probability_density_sample` for a Gaussian density; `z` are the numbers returned by `randn`. -/
def densSample (p : Dens K) (z : List K) : C (List K) := do
  let lt ← ptr p.lt
  ltApply p.dim p.dim lt.A z lt.b

/-! ### Serialization -/

/-- Integer value of `enum lt_matrix_type`. -/
def MType.code : MType → W32 | .LT => 0 | .SYMMETRIC => 1 | .GEN => 2

/-- The cast from `int` to `enum lt_matrix_type`; other values are kept by C but mean nothing. -/
def mtOf (c : W32) : Option MType :=
  if c = 0 then some .LT else if c = 1 then some .SYMMETRIC else if c = 2 then some .GEN else none

/-- The inverse, probability.c:793-798. -/
def serLtInv (lt : LinT W64) : C Bytes :=
  match lt.inv with
  | none => pure []
  | some i => do
    let m ← field lt.mti
    let a ← serDoublep i.1 (lt.dimin * lt.dimout)
    let b ← serDoublep i.2 lt.dimin
    let d ← field lt.detinv
    pure (serInt m.code ++ a ++ b ++ serDouble d)

/-- probability.c:763-801 `linear_transform_serialize` (writing mode). -/
def serLt (lt : LinT W64) : C Bytes := do
  let m ← field lt.mt
  let a ← serDoublep lt.A (lt.dimin * lt.dimout)
  let b ← serDoublep lt.b lt.dimout
  let d ← field lt.det
  let r ← serLtInv lt
  pure (serSize lt.dimin ++ serSize lt.dimout ++ serInt m.code ++ serInt (if lt.inv.isSome then 1 else 0) ++ a ++ b ++ serDouble d ++ r)

/-- probability.c:768-786 (size mode). -/
def sizeLt (lt : LinT W64) : C Nat :=
  pure (lt.dimin * lt.dimout * 8 + 8 + (lt.dimout * 8 + 8) + 8 + 8 + 8 + 4 + 4 +
    (if lt.inv.isSome then lt.dimin * lt.dimout * 8 + 8 + (lt.dimin * 8 + 8) + 8 + 4 else 0))

/-- probability.c:829-835: the inverse. -/
def deLtInv (flag : W32) (buf : Bytes) : C ((Option (List W64 × List W64) × Option W64 × Option MType) × Bytes) :=
  if flag = 0 then pure ((none, none, none), buf)
  else do
    let m ← deInt buf
    let a ← deDoublep m.2
    let b ← deDoublep a.2
    let d ← deDouble b.2
    pure ((some (a.1.1, b.1.1), some d.1, mtOf m.1), d.2)

/-- probability.c:811-842 `linear_transform_deserialize`. -/
def deLt (buf : Bytes) : C (LinT W64 × Bytes) := do
  let di ← deSize buf
  let dou ← deSize di.2
  let m ← deInt dou.2
  let e ← deInt m.2
  let a ← deDoublep e.2
  let b ← deDoublep a.2
  let d ← deDouble b.2
  let r ← deLtInv e.1 d.2
  pure (⟨a.1.1, b.1.1, some d.1, r.1.1, r.1.2.1, di.1, dou.1, mtOf m.1, r.1.2.2⟩, r.2)

end C3.Prob

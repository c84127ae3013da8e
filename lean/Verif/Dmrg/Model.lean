/-
Alternating fit of a train to a product of trains: lib_clinalg/dmrg.c, lib_clinalg/dmrgprod.c.

The orthogonal decompositions of arrays of functions and LAPACK's `dgesdd` are arguments. Arrays that the C code copies or
frees are values here; a pointer that may be NULL is an `Option`. Printing is left out.
-/
import Verif.Round.Model

namespace C3.Dmrg
open C3.Ft C3.Round
variable {U : Type}

/-- The routines used: those of rounding, `qmarray_qr` and `qmarray_lq` with the options of dimension `k`. -/
structure DmOps (U : Type) extends RdOps U where
  qrF : Nat → Qma U → C (Qma U × List ℝ)
  lqF : Nat → Qma U → C (Qma U × List ℝ)

/-- dmrg.h `struct QR`, without the flag `right`, which nothing reads. -/
structure QRs (U : Type) where
  mr : Nat
  mc : Nat
  mat : List ℝ
  Q : Qma U

/-- The specialised multiplication of a core by a matrix: `f left core r mat`, `left` is `type == 'L'`. -/
abbrev Sup (U : Type) := Bool → Nat → Nat → Option (List ℝ) → C (Qma U)

/-- Dereferencing an entry of an array of pointers. -/
def rdp {α : Type} (l : List (Option α)) (i : Nat) : C α := do
  let v ← rd l i
  match v with
  | none => .error .null
  | some x => pure x

/-- `cblas_dgemm(CblasColMajor,CblasTrans,CblasNoTrans,m,n,k,1.0,A,lda,B,ldb,0.0,Cm,ldc)`. -/
def dgemmTN (m n k : Nat) (A : List ℝ) (lda : Nat) (B : List ℝ) (ldb : Nat) (Cm : List ℝ) (ldc : Nat) : C (List ℝ) :=
  forN n (fun j c => forN m (fun i c => do
    let s ← forN k (fun t s => do
      let a ← rd A (i * lda + t)
      let b ← rd B (j * ldb + t)
      pure (s + a * b)) 0
    wr c (j * ldc + i) s) c) Cm

/-- `cblas_dgemm(CblasColMajor,CblasNoTrans,CblasTrans,m,n,k,1.0,A,lda,B,ldb,0.0,Cm,ldc)`. -/
def dgemmNT (m n k : Nat) (A : List ℝ) (lda : Nat) (B : List ℝ) (ldb : Nat) (Cm : List ℝ) (ldc : Nat) : C (List ℝ) :=
  forN n (fun j c => forN m (fun i c => do
    let s ← forN k (fun t s => do
      let a ← rd A (t * lda + i)
      let b ← rd B (t * ldb + j)
      pure (s + a * b)) 0
    wr c (j * ldc + i) s) c) Cm

/-- dmrg.c:83-90, `type == 1`. -/
def qrRight (o : DmOps U) (k : Nat) (A : Qma U) : C (QRs U) := do
  let q ← o.qrF k A
  pure ⟨A.ncols, A.ncols, q.2, q.1⟩

/-- dmrg.c:76-82, `type == 0`. -/
def qrLeft (o : DmOps U) (k : Nat) (A : Qma U) : C (QRs U) := do
  let q ← o.lqF k A
  pure ⟨A.nrows, A.nrows, q.2, q.1⟩

/-- dmrg.c:191-206 `dmrg_super_r`. -/
noncomputable def superR (o : DmOps U) (f : Sup U) (dim : Nat) (prev : QRs U) (z : Qma U) : C (QRs U) := do
  let val ← qmaqmatInt o.inner prev.Q z
  let temp ← f false dim z.nrows (some val)
  qrLeft o dim temp

/-- dmrg.c:237-240, loop body; the loop index is `ii = dim-3-jj`. -/
noncomputable def superStep (o : DmOps U) (f : Sup U) (z : FT ℝ U) (jj : Nat) (right : List (Option (QRs U))) :
    C (List (Option (QRs U))) := do
  let ii := z.dim - 3 - jj
  let prev ← rdp right (ii + 1)
  let zc ← rd z.cores (ii + 2)
  let q ← superR o f (ii + 1) prev zc
  wr right ii (some q)

/-- dmrg.c:218-242 `dmrg_super_r_all`. For `dim = 1` the array is empty and `right[dim-2]` lies outside it. -/
noncomputable def superAll (o : DmOps U) (f : Sup U) (z : FT ℝ U) : C (List (Option (QRs U))) := do
  let temp ← f false (z.dim - 1) 1 none
  let q ← qrLeft o (z.dim - 1) temp
  let right ← wr (List.replicate (z.dim - 1) none) (z.dim - 2) (some q)
  forN (z.dim - 2) (superStep o f z) right

/-- The train under construction, the multipliers that change, and the factors of the last decomposition. -/
structure Swp (U : Type) where
  ranks : List Nat
  cores : List (Option (Qma U))
  ph : List (Option (QRs U))
  nrows : Nat
  nmult : Nat
  ncols : Nat
  t : Tsvd

/-- dmrg.c:281-294 (and 322-331, 391-404, 433-443): the product of the two triangular factors, decomposed. -/
noncomputable def decomp (o : DmOps U) (p q : QRs U) (eps : ℝ) : C Tsvd := do
  let RL ← dgemmNN p.mr q.mc p.mc p.mat p.mr q.mat p.mc (List.replicate (p.mr * q.mc) 0) p.mr
  truncSvd o.svd p.mr q.mc RL eps

/-- dmrg.c:271-278: the first multiplier is made when it is not there. -/
def first (o : DmOps U) (f : Sup U) (phil : List (Option (QRs U))) : C (List (Option (QRs U))) := do
  let p ← rd phil 0
  match p with
  | some _ => pure phil
  | none => do
    let temp ← f true 0 1 none
    let q ← qrRight o 0 temp
    wr phil 0 (some q)

/-- dmrg.c:301-336, loop body. -/
noncomputable def lrStep (o : DmOps U) (f : Sup U) (psir : List (Option (QRs U))) (eps : ℝ) (ii : Nat) (w : Swp U) :
    C (Swp U) := do
  let prev ← rdp w.ph (ii - 1)
  let newphi ← dgemmTN w.t.rank w.nmult w.nrows w.t.u w.nrows prev.mat w.nrows
    (List.replicate (w.t.rank * prev.mc) 0) w.t.rank
  let temp ← f true ii w.t.rank (some newphi)
  let q ← qrRight o ii temp
  let ph ← wr w.ph ii (some q)
  let s ← rdp psir ii
  let t ← decomp o q s eps
  let rk ← wr w.ranks (ii + 1) t.rank
  let c ← qmam o.lin q.Q t.u t.rank
  let cs ← wr w.cores ii (some c)
  pure ⟨rk, cs, ph, q.mr, q.mc, s.mc, t⟩

/-- dmrg.c:339-344: multiply the rows of `vt` by the singular values. -/
def scaleRows (ncols rank : Nat) (s vt : List ℝ) : C (List ℝ) :=
  forN ncols (fun kk => forN rank (fun jj vt => do
    let v ← rd vt (kk * rank + jj)
    let x ← rd s jj
    wr vt (kk * rank + jj) (v * x))) vt

/-- dmrg.c:258-355 `dmrg_sweep_lr`: the new train and the left multipliers. -/
noncomputable def sweepLR (o : DmOps U) (f : Sup U) (dim : Nat) (phil psir : List (Option (QRs U))) (eps : ℝ) :
    C (FT ℝ U × List (Option (QRs U))) := do
  let rk ← wr (List.replicate (dim + 1) 0) 0 1
  let rk ← wr rk dim 1
  let ph ← first o f phil
  let p ← rdp ph 0
  let s ← rdp psir 0
  let t ← decomp o p s eps
  let rk ← wr rk 1 t.rank
  let c ← qmam o.lin p.Q t.u t.rank
  let cs ← wr (List.replicate dim none) 0 (some c)
  let w ← forR 1 (dim - 1) (lrStep o f psir eps) ⟨rk, cs, ph, p.mr, p.mc, s.mc, t⟩
  let vt ← scaleRows w.ncols w.t.rank w.t.s w.t.vt
  let s ← rdp psir (dim - 2)
  let c ← mqma o.lin vt s.Q w.t.rank
  let cs ← wr w.cores (dim - 1) (some c)
  let na ← ftDone dim w.ranks cs
  pure (na, w.ph)

/-- dmrg.c:382-389: the last multiplier is made when it is not there. -/
def lastR (o : DmOps U) (f : Sup U) (dim : Nat) (psir : List (Option (QRs U))) : C (List (Option (QRs U))) := do
  let p ← rd psir (dim - 2)
  match p with
  | some _ => pure psir
  | none => do
    let temp ← f false (dim - 1) 1 none
    let q ← qrLeft o (dim - 1) temp
    wr psir (dim - 2) (some q)

/-- dmrg.c:411-447, loop body; the loop index is `ii = dim-3-jj`. -/
noncomputable def rlStep (o : DmOps U) (f : Sup U) (dim : Nat) (phil : List (Option (QRs U))) (eps : ℝ) (jj : Nat)
    (w : Swp U) : C (Swp U) := do
  let ii := dim - 3 - jj
  let prev ← rdp w.ph (ii + 1)
  let newpsi ← dgemmNT prev.mr w.t.rank prev.mc prev.mat prev.mr w.t.vt w.t.rank
    (List.replicate (prev.mr * w.t.rank) 0) prev.mr
  let temp ← f false (ii + 1) w.t.rank (some newpsi)
  let q ← qrLeft o (ii + 1) temp
  let ph ← wr w.ph ii (some q)
  let p ← rdp phil ii
  let t ← decomp o p q eps
  let rk ← wr w.ranks (ii + 1) t.rank
  let c ← mqma o.lin t.vt q.Q t.rank
  let cs ← wr w.cores (ii + 1) (some c)
  pure ⟨rk, cs, ph, p.mr, p.mc, q.mc, t⟩

/-- dmrg.c:449-454: multiply the columns of `u` by the singular values. -/
def scaleCols (nrows rank : Nat) (s u : List ℝ) : C (List ℝ) :=
  forN rank (fun jj => forN nrows (fun kk u => do
    let v ← rd u (jj * nrows + kk)
    let x ← rd s jj
    wr u (jj * nrows + kk) (v * x))) u

/-- dmrg.c:370-466 `dmrg_sweep_rl`: the new train and the right multipliers. -/
noncomputable def sweepRL (o : DmOps U) (f : Sup U) (dim : Nat) (phil psir : List (Option (QRs U))) (eps : ℝ) :
    C (FT ℝ U × List (Option (QRs U))) := do
  let rk ← wr (List.replicate (dim + 1) 0) 0 1
  let rk ← wr rk dim 1
  let ps ← lastR o f dim psir
  let p ← rdp phil (dim - 2)
  let s ← rdp ps (dim - 2)
  let t ← decomp o p s eps
  let rk ← wr rk (dim - 1) t.rank
  let c ← mqma o.lin t.vt s.Q t.rank
  let cs ← wr (List.replicate dim none) (dim - 1) (some c)
  let w ← forN (dim - 2) (rlStep o f dim phil eps) ⟨rk, cs, ps, p.mr, p.mc, s.mc, t⟩
  let u ← scaleCols w.nrows w.t.rank w.t.s w.t.u
  let p ← rdp phil 0
  let c ← qmam o.lin p.Q u w.t.rank
  let cs ← wr w.cores 0 (some c)
  let na ← ftDone dim w.ranks cs
  pure (na, w.ph)

/-- The current approximation, both arrays of multipliers, whether the loop has been left, and the number of sweeps made
(the last is for the theorems; the C code prints it). -/
structure Dst (U : Type) where
  na : FT ℝ U
  phil : List (Option (QRs U))
  psir : List (Option (QRs U))
  stop : Bool
  cnt : Nat

/-- dmrg.c:481-492 `dmrg_sweep_lrl` and the loop body 525-541 of `dmrg_approx`; `thr` is the ZEROTHRESH of the relative
difference. -/
noncomputable def dmrgStep (o : DmOps U) (f : Sup U) (thr delta eps : ℝ) (_ : Nat) (d : Dst U) : C (Dst U) :=
  if d.stop then pure d
  else do
    let a ← sweepLR o f d.na.dim d.phil d.psir eps
    let b ← sweepRL o f a.1.dim a.2 d.psir eps
    let diff ← relnorm2diff o.lin o.inner thr b.1 d.na
    let na ← ftCopy b.1
    pure ⟨na, a.2, b.2, decide (diff < delta), d.cnt + 1⟩

/-- dmrg.c:508-546 `dmrg_approx`. -/
noncomputable def dmrgApprox (o : DmOps U) (f : Sup U) (z : FT ℝ U) (thr delta : ℝ) (maxSweeps : Nat) (eps : ℝ) :
    C (Dst U) := do
  let na ← orthor o.toRdOps z
  let psir ← superAll o f na
  forN maxSweeps (dmrgStep o f thr delta eps) ⟨na, List.replicate (z.dim - 1) none, psir, false, 0⟩

/-- dmrgprod.c:52-76 `dmrg_prod_support`. -/
noncomputable def prodSup (o : DmOps U) (a b : FT ℝ U) : Sup U := fun left core r mat =>
  if left then
    if core = 0 then do
      let A ← rd a.cores 0
      let B ← rd b.cores 0
      kron o.lin.toOps A B
    else do
      let A ← rd a.cores core
      let B ← rd b.cores core
      match mat with
      | none => .error .null
      | some m => matKron o.lin r m A B
  else
    if core = a.dim - 1 then do
      let A ← rd a.cores core
      let B ← rd b.cores core
      kron o.lin.toOps A B
    else do
      let A ← rd a.cores core
      let B ← rd b.cores core
      match mat with
      | none => .error .null
      | some m => kronMat o.lin r m A B

/-- dmrgprod.c:92-118 `dmrg_product`; without a guess (`z == NULL`) a copy of the first factor is the guess. -/
noncomputable def dmrgProduct (o : DmOps U) (z : Option (FT ℝ U)) (a b : FT ℝ U) (thr delta : ℝ) (maxSweeps : Nat)
    (eps : ℝ) : C (FT ℝ U) := do
  let zin ← match z with
    | none => ftCopy a
    | some z => pure z
  let d ← dmrgApprox o (prodSup o a b) zin thr delta maxSweeps eps
  pure d.na

end C3.Dmrg

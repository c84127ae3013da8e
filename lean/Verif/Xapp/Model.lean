/-
Cross approximation of a function: lib_clinalg/ft.c `prepCore`, `ftapprox_cross`, `ftapprox_cross_rankadapt`,
lib_funcs/functions.c `generic_function_approximate1d` as an argument.

The approximation of one fiber sees the wrapped function through `fwrap_eval` only. `X` is the type of the points.
-/
import Verif.Mv.Model
import Verif.Fwrap.Model
import Verif.Ind.Model
import Verif.Ft.InnerAlg

namespace C3.Xa
open C3.Ft C3.Round C3.Mv C3.Fw C3.Ind
variable {U X : Type} [Zero X]

/-- The routines cross approximation is built on: those of rounding and of the maximum volume search, and
`approx k ev`, which is `generic_function_approximate1d` with the options of dimension `k` where `ev n x` is what
`fwrap_eval(n,x,out,fw)` returns. `thr` is ZEROTHRESH. -/
structure XOps (U X : Type) where
  rd : RdOps U
  mv : MvOps U X
  approx : Nat → (Nat → List X → C (Int × List ℝ)) → C U
  thr : ℝ

/-- indmanage.c:239-253 as `prepCore` calls it: for a missing index set the pointer is NULL and the count stays zero. -/
def nodeVal (c : Option (CIndex X)) (i : Nat) : C (List X × Nat) := do
  let o ← getNodeValue c i
  match o with
  | none => pure ([], 0)
  | some v => pure v

/-- ft.c:3262-3277: register one fiber for every pair of nodes. -/
def addFibers (nrows ncols : Nat) (l r : Option (CIndex X)) (fw : Fwrap X ℝ) : C (Fwrap X ℝ) :=
  forN ncols (fun jj fw => do
    let rt ← nodeVal r jj
    forN nrows (fun kk fw => do
      let lf ← nodeVal l kk
      addFiber fw (jj * nrows + kk) lf.2 lf.1 rt.2 rt.1) fw) fw

/-- ft.c:3281-3288: approximate the fibers. Which fiber is selected is overwritten by the next pass and not kept here. -/
def approxFibers (o : XOps U X) (k nrows ncols : Nat) (fw : Fwrap X ℝ) : C (List (Option U)) :=
  forN ncols (fun jj => forN nrows (fun kk c => do
    let w ← setWhich fw (jj * nrows + kk)
    let u ← o.approx k (eval w)
    wr c (jj * nrows + kk) (some u))) (List.replicate (nrows * ncols) none)

/-- ft.c:3246-3294 `prepCore`: the array of approximated fibers, and the wrapper afterwards. -/
def prepCore (o : XOps U X) (k nrows ncols : Nat) (fw : Fwrap X ℝ) (left right : List (Option (CIndex X))) :
    C (Qma U × Fwrap X ℝ) := do
  let r ← rd right k
  let l ← rd left k
  let w ← addFibers nrows ncols l r (initFiber fw k (nrows * ncols))
  let c ← approxFibers o k nrows ncols w
  let fs ← allSome c
  pure (⟨nrows, ncols, fs⟩, cleanFiber w)

/-- ft.c:3482-3487 and 3664-3671: an index set of single points. -/
def singles (n : Nat) (px : List X) : C (CIndex X) :=
  forN n (fun zz ci => addIndex ci 1 (px.drop zz)) (indexAlloc 1)

/-- A pointer that is dereferenced. -/
def notNull (c : Option (CIndex X)) : C (CIndex X) :=
  match c with
  | none => .error .null
  | some c => .ok c

/-- ft.c:3476-3488: the new left index set. -/
def newLeft (ii n : Nat) (piv : List Nat) (px : List X) (old : Option (CIndex X)) : C (CIndex X) :=
  if ii > 0 then do
    let c ← notNull old
    createNestedInd 0 n piv px c
  else singles n px

/-- ft.c:3657-3671: the new right index set. -/
def newRight (ii dim n : Nat) (piv : List Nat) (px : List X) (old : Option (CIndex X)) : C (CIndex X) :=
  if ii < dim - 1 then do
    let c ← notNull old
    createNestedInd 1 n piv px c
  else singles n px

/-- Wrapper, index sets and cores. -/
structure Xs (U X : Type) where
  fw : Fwrap X ℝ
  left : List (Option (CIndex X))
  right : List (Option (CIndex X))
  cores : List (Option (Qma U))

/-- ft.c:3468-3474, 3639-3646: the return code of the maximum volume search; negative values only print a warning. -/
def checkInfo (r : MvRes X) : C Unit := if r.info > 0 then .error .exit else .ok ()

/-- ft.c:3407-3499: one core of the sweep from left to right. -/
noncomputable def lrStep (e : Ev ℝ U X) (o : XOps U X) (ranks : List Nat) (ii : Nat) (s : Xs U X) : C (Xs U X) := do
  let rk ← rd ranks ii
  let rn ← rd ranks (ii + 1)
  let p ← prepCore o ii rk rn s.fw s.left s.right
  let q ← o.rd.qr ii p.1
  let m ← maxvol e o.mv ii q.1 q.2
  checkInfo m
  let old ← rd s.left ii
  let l ← newLeft ii rn m.piv m.px old
  let left ← wr s.left (ii + 1) (some l)
  let core ← qmam o.rd.lin q.1 m.inv p.1.ncols
  let cores ← wr s.cores ii (some core)
  pure ⟨p.2, left, s.right, cores⟩

/-- ft.c:3500-3509, 3684-3691: the last core of a sweep is the array of fibers. -/
def lastStep (o : XOps U X) (ranks : List Nat) (ii : Nat) (s : Xs U X) : C (Xs U X) := do
  let rk ← rd ranks ii
  let rn ← rd ranks (ii + 1)
  let p ← prepCore o ii rk rn s.fw s.left s.right
  let cores ← wr s.cores ii (some p.1)
  pure ⟨p.2, s.left, s.right, cores⟩

/-- ft.c:3405-3509: from left to right. -/
noncomputable def lrSweep (e : Ev ℝ U X) (o : XOps U X) (dim : Nat) (ranks : List Nat) (s : Xs U X) : C (Xs U X) := do
  let s ← forN (dim - 1) (lrStep e o ranks) s
  lastStep o ranks (dim - 1) s

/-- ft.c:3592-3682: one core of the sweep from right to left. -/
noncomputable def rlStep (e : Ev ℝ U X) (o : XOps U X) (dim : Nat) (ranks : List Nat) (ii : Nat) (s : Xs U X) : C (Xs U X) := do
  let rk ← rd ranks ii
  let rn ← rd ranks (ii + 1)
  let p ← prepCore o ii rk rn s.fw s.left s.right
  let q ← o.rd.lq ii p.1
  let qt ← transpose q.1
  let m ← maxvol e o.mv ii qt q.2
  checkInfo m
  let c ← qmam o.rd.lin qt m.inv p.1.nrows
  let core ← transpose c
  let cores ← wr s.cores ii (some core)
  let old ← rd s.right ii
  let r ← newRight ii dim rk m.piv m.px old
  let right ← wr s.right (ii - 1) (some r)
  pure ⟨p.2, s.left, right, cores⟩

/-- ft.c:3592-3691: from right to left. -/
noncomputable def rlSweep (e : Ev ℝ U X) (o : XOps U X) (dim : Nat) (ranks : List Nat) (s : Xs U X) : C (Xs U X) := do
  let s ← forR 1 dim (fun oncore => rlStep e o dim ranks (dim - oncore)) s
  lastStep o ranks 0 s

/-- ft.c:3708-3714: the distance to the train before the previous one, if there is one. -/
noncomputable def oldDiff (o : XOps U X) (a : FT ℝ U) (fti2 : Option (FT ℝ U)) (diff : ℝ) : C ℝ :=
  match fti2 with
  | none => .ok diff
  | some b => relnorm2diff o.rd.lin o.rd.inner o.thr a b

/-- ft.c:3401-3745: the loop. What is only printed (the distance after the first sweep) is computed nevertheless. The loop
has no other bound than `maxiter`, which is compared with the count after it was increased; `.diverge` when the fuel is used up. -/
noncomputable def xLoop (e : Ev ℝ U X) (o : XOps U X) (dim : Nat) (ranks : List Nat) (eps : ℝ) (maxiter : Nat) :
    Nat → Nat → Xs U X → FT ℝ U → Option (FT ℝ U) → C (FT ℝ U × Xs U X)
  | 0, _, _, _, _ => .error .diverge
  | fuel + 1, iter, s, fti, fti2 => do
    let s1 ← lrSweep e o dim ranks s
    let a ← ftDone dim ranks s1.cores
    let _ ← norm2diff o.rd.lin o.rd.inner a fti
    let _ ← ftNorm2 o.rd.lin o.rd.inner a
    let s2 ← rlSweep e o dim ranks s1
    let b ← ftDone dim ranks s2.cores
    let diff ← relnorm2diff o.rd.lin o.rd.inner o.thr b fti
    let diff2 ← oldDiff o b fti2 diff
    if diff2 < eps ∧ diff < eps then pure (b, s2)
    else do
      let c2 ← ftCopy fti
      let c1 ← ftCopy b
      if iter + 1 = maxiter then pure (b, s2)
      else xLoop e o dim ranks eps maxiter fuel (iter + 1) s2 c1 (some c2)

/-- ft.c:3361-3750 `ftapprox_cross`: the train and the index sets afterwards. -/
noncomputable def cross (e : Ev ℝ U X) (o : XOps U X) (dim : Nat) (ranks : List Nat) (eps : ℝ) (maxiter fuel : Nat)
    (fw : Fwrap X ℝ) (left right : List (Option (CIndex X))) (ref : FT ℝ U) : C (FT ℝ U × Xs U X) := do
  let fti ← ftCopy ref
  xLoop e o dim ranks eps maxiter fuel 0 ⟨fw, left, right, List.replicate dim none⟩ fti none

end C3.Xa

/-
The approximation interface: lib_interface/approximate.c, with the cross approximation arguments (lib_clinalg/ft.c) and the
lists of options per dimension (lib_funcs/fapprox.c).

Simplifications: freeing is not modelled; the optimization options of `c3approx_set_opt_opts_dim` are stored, but the maximum
search of the model (`XOps`) is one routine that stands for the search with these options; the bounding box, the grid and the
regression part of the structure are never touched by the functions here.
-/
import Verif.Xapp.AdaptModel
import Verif.Ind.Model

namespace C3.Xa
open C3.Ft C3.Round C3.Mv C3.Fw C3.Ind
variable {U X O W : Type} [Zero X]

/-- approximate.h `enum C3ATYPE`. -/
inductive AType where
  | cross
  | regress
  | unspec
  deriving DecidableEq

/-- What the interface is built on: the routines of cross approximation; `grid o n`, the points `linspace(lb,ub,n)` between the
bounds stored in the options `o` (fapprox.c:172-226); `one`, the train `function_train_constant(1.0,...)` (ft.c:1714-1746). -/
structure SOps (U X O : Type) where
  x : XOps U X
  grid : O → Nat → C (List X)
  one : List O → C (FT ℝ U)

/-- ft.c:3055-3069 `struct FtCrossArgs`. -/
structure Fca where
  dim : Nat
  ranks : List Nat
  epsilon : ℝ
  maxiter : Nat
  adapt : Bool
  epsround : ℝ
  kickrank : Nat
  maxranks : List Nat
  verbose : Int

/-- ft.c:3075-3107 `ft_cross_args_alloc` (`dim-1` wraps around for `dim = 0`: the loop over `maxranks` leaves the memory; and
without dimensions the rank 0 is written over by the last one). -/
noncomputable def fcaAlloc (dim start : Nat) : C Fca := do
  let r ← wr (List.replicate (dim + 1) 0) 0 1
  let r ← forR 1 dim (fun ii r => wr r ii start) r
  let r ← wr r dim 1
  if dim = 0 then .error .oob
  else do
    let m ← forN (dim - 1) (fun ii m => do
      let x ← rd r (ii + 1)
      wr m ii (x + 5 * 4)) (List.replicate (dim - 1) 0)
    pure ⟨dim, r, 1 / 10 ^ 10, 5, true, 1 / 10 ^ 10, 5, m, 0⟩

/-- ft.c:3161-3168 `ft_cross_args_set_maxrank_all`. -/
def maxrankAll (f : Fca) (maxrank : Nat) : C Fca := do
  let m ← forN (f.dim - 1) (fun ii m => wr m ii maxrank) f.maxranks
  pure { f with maxranks := m }

/-- approximate.c:55-82 `struct C3Approx`. -/
structure Sess (U X O W : Type) where
  dim : Nat
  type : AType
  fapp : List (Option O)
  fopt : List (Option W)
  isl : List (Option (CIndex X))
  isr : List (Option (CIndex X))
  fca : Option Fca
  ftref : Option (FT ℝ U)

/-- approximate.c:120-157 `c3approx_create`. -/
def create (type : AType) (dim : Nat) : C (Sess U X O W) :=
  match type with
  | .cross => .ok ⟨dim, .cross, List.replicate dim none, List.replicate dim none, List.replicate dim none,
      List.replicate dim none, none, none⟩
  | .regress => .ok ⟨dim, .regress, List.replicate dim none, List.replicate dim none, [], [], none, none⟩
  | .unspec => .error .exit

/-- approximate.c:204-214 `c3approx_set_approx_opts_dim`. -/
def setApprox (s : Sess U X O W) (ii : Nat) (o : O) : C (Sess U X O W) := do
  cassert (ii < s.dim)
  let f ← wr s.fapp ii (some o)
  pure { s with fapp := f }

/-- approximate.c:223-231 `c3approx_set_opt_opts_dim`. -/
def setOpt (s : Sess U X O W) (ii : Nat) (o : W) : C (Sess U X O W) := do
  cassert (ii < s.dim)
  let f ← wr s.fopt ii (some o)
  pure { s with fopt := f }

/-- fapprox.c:172-226: the bounds of options that were never set (NULL) are refused. -/
def gridOf (o : SOps U X O) (a : Option O) (n : Nat) : C (List X) :=
  match a with
  | none => .error .assertFail
  | some a => o.grid a n

/-- fapprox.c:`multi_approx_opts_get_aopts` for all dimensions, each dereferenced by `function_train_constant`. -/
def allSet : List (Option O) → C (List O)
  | [] => .ok []
  | none :: _ => .error .null
  | some o :: l => do
    let l ← allSet l
    pure (o :: l)

/-- approximate.c:256-266, 313-328: the starting points, the caller's or a grid with `n ii` points in dimension `ii`. -/
def starts (o : SOps U X O) (s : Sess U X O W) (n : Nat → C Nat) (startin : Option (List (List X))) : C (List (List X)) :=
  match startin with
  | some l => .ok l
  | none => forN s.dim (fun ii l => do
      let a ← rd s.fapp ii
      let k ← n ii
      let g ← gridOf o a k
      wr l ii g) (List.replicate s.dim [])

/-- approximate.c:272-280, 338-346: index sets and reference train; of the ranks the first `dim`, then the last `dim`, are
passed on (the code passes the pointers `ranks` and `ranks+1`). -/
def setUp (o : SOps U X O) (s : Sess U X O W) (fca : Fca) (start : List (List X)) : C (Sess U X O W) := do
  let isr ← arrayInitialize s.dim s.isr 0 1 (fca.ranks.take s.dim) start
  let isl ← arrayInitialize s.dim s.isl 0 0 (fca.ranks.drop 1) start
  let l ← allSet s.fapp
  let ref ← o.one l
  pure { s with isl := isl, isr := isr, fca := some fca, ftref := some ref }

/-- approximate.c:245-285 `c3approx_init_cross`; former arguments are dropped. -/
noncomputable def initCross (o : SOps U X O) (s : Sess U X O W) (rank : Nat) (verbose : Int) (startin : Option (List (List X))) :
    C (Sess U X O W) := do
  cassert (s.type = .cross)
  let start ← starts o s (fun _ => .ok rank) startin
  let fca ← fcaAlloc s.dim rank
  setUp o s { fca with verbose := verbose, epsround := 1 / 10 ^ 14 } start

/-- approximate.c:321-326: `init_ranks[1]` points in the first dimension, `init_ranks[ii]` in dimension `ii`. -/
def hetCount (ranks : List Nat) (ii : Nat) : C Nat := if ii = 0 then rd ranks 1 else rd ranks ii

/-- approximate.c:302-350 `c3approx_init_cross_het`. -/
noncomputable def initHet (o : SOps U X O) (s : Sess U X O W) (ranks : List Nat) (verbose : Int)
    (startin : Option (List (List X))) : C (Sess U X O W) := do
  cassert (s.type = .cross)
  let start ← starts o s (hetCount ranks) startin
  let r1 ← rd ranks 1
  let fca ← fcaAlloc s.dim r1
  let rk ← forN (s.dim + 1) (fun ii r => do
    let x ← rd ranks ii
    wr r ii x) fca.ranks
  setUp o s { fca with ranks := rk, verbose := verbose, epsround := 1 / 10 ^ 14 } start

/-- The calls that change one argument. -/
inductive Arg where
  | verbose (v : Int)
  | roundTol (e : ℝ)
  | crossTol (e : ℝ)
  | kickrank (k : Nat)
  | maxiter (n : Nat)
  | maxrank (n : Nat)

/-- ft.c:3121-3194: the same calls on the arguments themselves. -/
def fcaSet (f : Fca) : Arg → C Fca
  | .verbose v => .ok { f with verbose := v }
  | .roundTol e => .ok { f with epsround := e }
  | .crossTol e => .ok { f with epsilon := e }
  | .kickrank k => .ok { f with kickrank := k }
  | .maxiter n => .ok { f with maxiter := n }
  | .maxrank n => maxrankAll f n

/-- approximate.c:355-428 `c3approx_set_verbose`, `..._round_tol`, `..._cross_tol`, `..._adapt_kickrank`, `..._cross_maxiter`,
`..._adapt_maxrank_all`. -/
def setArg (s : Sess U X O W) (a : Arg) : C (Sess U X O W) :=
  match s.fca with
  | none => .error .exit
  | some f => do
    let f ← fcaSet f a
    pure { s with fca := some f }

/-- A sequence of such calls. -/
def setArgs : List Arg → Sess U X O W → C (Sess U X O W)
  | [], s => .ok s
  | a :: l, s => do
    let s ← setArg s a
    setArgs l s

/-- The arguments as `ftapprox_cross_rankadapt` sees them. -/
def Fca.args (f : Fca) (fuel : Nat) : CArgs := ⟨f.dim, f.epsilon, f.maxiter, fuel, f.adapt, f.epsround, f.kickrank, f.maxranks⟩

/-- approximate.c:434-461 `c3approx_do_cross`: the train, and the session afterwards. The left index sets are left as they were
(the code writes them before it reads them, except the first, which stays NULL). `fuel` bounds the passes of one cross
approximation and `n` the number of cross approximations, in the model only. -/
noncomputable def doCross (e : Ev ℝ U X) (o : SOps U X O) (fuel n : Nat) (s : Sess U X O W) (fw : Fwrap X ℝ) (adapt : Int) :
    C (FT ℝ U × Sess U X O W) := do
  cassert (s.type = .cross)
  match s.fca, s.ftref with
  | some f, some ref =>
    if adapt = 0 then do
      let r ← cross e o.x f.dim f.ranks f.epsilon f.maxiter fuel fw s.isl s.isr ref
      pure (r.1, { s with isr := r.2.right })
    else do
      let r ← crossAdapt e o.x (f.args fuel) n f.ranks fw s.isl s.isr ref
      pure (r.1, { s with isr := r.2.right, fca := some { f with ranks := r.2.ranks } })
  | _, _ => .error .assertFail

end C3.Xa

/-
Cross approximation of discrete tensors, the sweeps (c3/lib_tensdecomp/cross.c `process_first_core_lr`, `process_cores_lr`,
`process_last_core_rl`, `process_cores_rl`, `tt_cross`), over the reals.

`qr m n M` and `mv` are linalg.c `qr` and `maxvol_rhs` (modelled in Skel/Model.lean); the code returned by `maxvol_rhs` is only printed.
`A core key` are the values the callback writes for the combined index `key` (Cross/Model.lean). `rnd` is the rounding inside
`big_to_multi`. The ranks and sizes do not change during a call; the ranks of the train are those of the options.
-/
import Verif.Cross.Model
import Verif.Core.Sum
import Verif.Tt.Model
import Mathlib.Data.Real.Basic

namespace C3.Tc
open C3.Cross

/-- Dimension, sizes and ranks (`struct tt_cross_opts`). -/
structure P where
  dim : Nat
  nvals : List Nat
  ranks : List Nat

/-- What changes: index sets left and right of the cores, stored fibers, values of the cores of the train. -/
structure S where
  left : List (List (List Nat))
  right : List (List (List Nat))
  cache : List (Cache ℝ)
  cores : List (List ℝ)

section Model
variable (qr : Nat → Nat → List ℝ → List ℝ) (mv : List ℝ → Nat → Nat → List Nat → List ℝ → C (Int × List Nat × List ℝ))
  (rnd : ℚ → ℚ) (A : Nat → List Nat → List ℝ) (p : P)

/-- cross.c:461-509 `cross_setup` for core `k` (the sets left of core `k` have dimension `k`, those right of it `dim-k-1`). -/
def setupCore (k : Nat) (lr : Bool) (s : S) : C (List ℝ × S) := do
  let r ← rd p.ranks k
  let n ← rd p.nvals k
  let r' ← rd p.ranks (k + 1)
  let l ← rd s.left k
  let rt ← rd s.right k
  let c ← rd s.cache k
  let t ← setup (A k) ⟨r, n, r', k, l, p.dim - k - 1, rt, lr⟩ c
  let cs ← wr s.cache k t.2
  .ok (t.1, { s with cache := cs })

/-- cross.c:537-539, 572-574: the first entries of the indices of a set become the selected rows. -/
def setFirst (N : Nat) (rows : List Nat) (set : List (List Nat)) : C (List (List Nat)) :=
  forN N (fun jj set => do
    let v ← rd rows jj
    let ix ← rd set jj
    let ix ← wr ix 0 v
    wr set jj ix) set

/-- cross.c:512-544 `process_first_core_lr`. -/
def firstLr (s : S) : C S := do
  let t ← setupCore A p 0 true s
  let r ← rd p.ranks 0
  let n ← rd p.nvals 0
  let r' ← rd p.ranks 1
  let Q := qr (r * n) r' t.1
  let q ← mv Q (r * n) r' (List.replicate r' 0) (List.replicate (r' * r') 0)
  let dst ← rd t.2.cores 0
  let G ← dgemmNN (r * n) r' r' Q (r * n) q.2.2 r' dst (r * n)
  let cores ← wr t.2.cores 0 G
  let l1 ← rd t.2.left 1
  let l1 ← setFirst r' q.2.1 l1
  let left ← wr t.2.left 1 l1
  .ok { t.2 with cores := cores, left := left }

/-- cross.c:656-699 `process_cores_lr`. -/
def coresLr (k : Nat) (s : S) : C S := do
  let t ← setupCore A p k true s
  let r ← rd p.ranks k
  let n ← rd p.nvals k
  let r' ← rd p.ranks (k + 1)
  let Q := qr (r * n) r' t.1
  let q ← mv Q (r * n) r' (List.replicate r' 0) (List.replicate (r' * r') 0)
  let dst ← rd t.2.cores k
  let G ← dgemmNN (r * n) r' r' Q (r * n) q.2.2 r' dst (r * n)
  let cores ← wr t.2.cores k G
  let lk ← rd t.2.left k
  let ln ← rd t.2.left (k + 1)
  let ln ← updateLeft rnd k r n lk q.2.1 r' ln
  let left ← wr t.2.left (k + 1) ln
  .ok { t.2 with cores := cores, left := left }

/-- cross.c:570-581, 624-635: transposition of a core. -/
def transp (r n r' : Nat) (At : List ℝ) (dst : List ℝ) : C (List ℝ) :=
  forN r (fun ii => forN n (fun zz => forN r' (fun ll d => do
    let v ← rd At (ll + zz * r' + ii * r' * n)
    wr d (ii + zz * r + ll * r * n) v))) dst

/-- cross.c:546-592 and 594-638, the common part of `process_last_core_rl` and `process_cores_rl`: the new core and the selected rows. -/
def selRl (k : Nat) (s : S) : C (List Nat × S) := do
  let t ← setupCore A p k false s
  let r ← rd p.ranks k
  let n ← rd p.nvals k
  let r' ← rd p.ranks (k + 1)
  let Q := qr (r' * n) r t.1
  let q ← mv Q (r' * n) r (List.replicate r 0) (List.replicate (r * r) 0)
  let At ← dgemmNN (r' * n) r r Q (r' * n) q.2.2 r (List.replicate (n * r * r') 0) (r' * n)
  let dst ← rd t.2.cores k
  let G ← transp r n r' At dst
  let cores ← wr t.2.cores k G
  .ok (q.2.1, { t.2 with cores := cores })

/-- cross.c:546-592 `process_last_core_rl`; `right[kk-1]` is outside of the array for one dimension. -/
def lastRl (s : S) : C S := do
  if p.dim ≤ 1 then .error .oob else .ok ()
  let t ← selRl qr mv A p (p.dim - 1) s
  let ln ← rd t.2.right (p.dim - 1 - 1)
  let ln ← setFirst ln.length t.1 ln
  let right ← wr t.2.right (p.dim - 1 - 1) ln
  .ok { t.2 with right := right }

/-- cross.c:594-654 `process_cores_rl`: the selected rows are split with `ranks[kk]`. -/
def coresRl (k : Nat) (s : S) : C S := do
  let t ← selRl qr mv A p k s
  let r ← rd p.ranks k
  let n ← rd p.nvals k
  let rk ← rd t.2.right k
  let ln ← rd t.2.right (k - 1)
  let ln ← updateRight rnd r n (p.dim - k - 1) rk t.1 ln.length ln
  let right ← wr t.2.right (k - 1) ln
  .ok { t.2 with right := right }

/-- cross.c:747-751, 763-767: a core is replaced by its fibers. -/
def rawCore (k : Nat) (s : S) : C S := do
  let t ← setupCore A p k true s
  let r ← rd p.ranks k
  let n ← rd p.nvals k
  let r' ← rd p.ranks (k + 1)
  let dst ← rd t.2.cores k
  let G ← Tt.blit (r * n * r') dst 0 t.1 0
  let cores ← wr t.2.cores k G
  .ok { t.2 with cores := cores }

/-- cross.c:742-767: one pass of the loop of `tt_cross`. -/
def pass (s : S) : C S := do
  let s ← firstLr qr mv A p s
  let s ← forN (p.dim - 1 - 1) (fun t => coresLr qr mv rnd A p (t + 1)) s
  let s ← rawCore A p (p.dim - 1) s
  let s ← lastRl qr mv A p s
  let s ← forN (p.dim - 2) (fun t => coresRl qr mv rnd A p (p.dim - 2 - t)) s
  rawCore A p 0 s

/-- The train of a state: `a->nvals`, `a->ranks` (lines 711-713: the first one is 1) and the cores. -/
def train (s : S) : Tt.TT ℝ :=
  let ar := 1 :: p.ranks.tail
  ⟨p.dim, p.nvals, ar, (List.range p.dim).map fun k => ⟨ar.getD k 0, p.nvals.getD k 0, ar.getD (k + 1) 0, s.cores.getD k []⟩⟩

/-- cross.c:735-785, the loop of `tt_cross`. `below new old` is the outcome of `tt_norm(ttadd(a,-aold))/tt_norm(aold) < epsilon` (any function
here); the loop also ends when more than `maxiter` passes are done. -/
def loop (below : Tt.TT ℝ → Tt.TT ℝ → Bool) (maxiter : Nat) : Nat → Nat → S → C S
  | 0, _, _ => .error .diverge
  | fuel + 1, iter, s => do
    let s' ← pass qr mv rnd A p s
    if below (train p s') (train p s) = true ∨ maxiter < iter + 1 then .ok s' else loop below maxiter fuel (iter + 1) s'

/-- cross.c:703-787 `tt_cross`: the cores start as fibers through the given index sets (lines 710-725). The bound on the number of passes is
that of line 781. -/
def ttCross (below : Tt.TT ℝ → Tt.TT ℝ → Bool) (maxiter : Nat) (left right : List (List (List Nat)))
    (cache : List (Cache ℝ)) : C (Tt.TT ℝ × S) := do
  let s ← forN p.dim (fun k s => do
    let t ← setupCore A p k true s
    .ok { t.2 with cores := t.2.cores ++ [t.1] }) ⟨left, right, cache, []⟩
  let s ← loop qr mv rnd A p below maxiter (maxiter + 1) 0 s
  .ok (train p s, s)

end Model
end C3.Tc

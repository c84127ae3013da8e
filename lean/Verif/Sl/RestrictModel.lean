/-
Restricted sets of parameters of a function train (parameterization.c).  The copies in the functions
themselves (`function_train_update_params`) are modelled in `Verif.Ft`.
-/
import Verif.Sl.Model

namespace C3.Sl

variable {K U : Type}

/-- parameterization.c:393-415 `ft_param_get_nparams_restrict`, the test "row or column is at least
the start rank"; the first core has no rows to test. -/
def outside (rankStart : List Nat) (kk ii jj : Nat) : C Bool :=
  if 0 < kk then do
    let a ← rd rankStart (kk - 1)
    if a ≤ ii then .ok true
    else do
      let b ← rd rankStart kk
      .ok (decide (b ≤ jj))
  else do
    let b ← rd rankStart kk
    .ok (decide (b ≤ jj))

/-- parameterization.c:473-505 `ft_param_update_inside_restricted_ranks`, the test "row and column are
below the start rank". -/
def inside (rankStart : List Nat) (kk ii jj : Nat) : C Bool :=
  if 0 < kk then do
    let a ← rd rankStart (kk - 1)
    if ii < a then do
      let b ← rd rankStart kk
      .ok (decide (jj < b))
    else .ok false
  else do
    let b ← rd rankStart kk
    .ok (decide (jj < b))

/-- The loops over cores, columns and rows common to the three functions. -/
def overFuns {S : Type} (F : FTP K U) (body : Nat → Nat → Nat → S → C S) (s : S) : C S :=
  forN F.dim (fun kk s => do
    let b ← rd F.ranks (kk + 1)
    let a ← rd F.ranks kk
    forN b (fun jj s => forN a (fun ii s => body kk ii jj s) s) s) s

/-- parameterization.c:393-415 `ft_param_get_nparams_restrict`; the state is (`nparams`, `ind`). -/
def nparamsRestrict (F : FTP K U) (rankStart : List Nat) : C Nat := do
  let s ← overFuns F (fun kk ii jj (s : Nat × Nat) => do
    let c ← outside rankStart kk ii jj
    if c then do
      let n ← rd F.npu s.2
      .ok (s.1 + n, s.2 + 1)
    else .ok (s.1, s.2 + 1)) (0, 0)
  .ok s.1

/-- State of the update loops. -/
structure Rs (K : Type) where
  params : List K
  onNew : Nat
  onGen : Nat
  ind : Nat

/-- parameterization.c:428-457, 473-505: one parameter. -/
def updOne (new : List K) (c : Bool) (s : Rs K) : C (Rs K) :=
  if c then do
    let v ← rd new s.onNew
    let p ← wr s.params s.onGen v
    .ok { s with params := p, onNew := s.onNew + 1, onGen := s.onGen + 1 }
  else .ok { s with onGen := s.onGen + 1 }

/-- parameterization.c:428-457, 473-505: the loops, for either test; the test is made again for
every parameter. -/
def updWhere (test : Nat → Nat → Nat → C Bool) (F : FTP K U) (new : List K) : C (FTP K U) := do
  let s ← overFuns F (fun kk ii jj (s : Rs K) => do
    let n ← rd F.npu s.ind
    let s ← forN n (fun _ s => do
      let c ← test kk ii jj
      updOne new c s) s
    .ok { s with ind := s.ind + 1 }) ⟨F.params, 0, 0, 0⟩
  .ok { F with params := s.params }

/-- parameterization.c:428-460 `ft_param_update_restricted_ranks`. -/
def updOutside (F : FTP K U) (new : List K) (rankStart : List Nat) : C (FTP K U) :=
  updWhere (outside rankStart) F new

/-- parameterization.c:473-505 `ft_param_update_inside_restricted_ranks`. -/
def updInside (F : FTP K U) (new : List K) (rankStart : List Nat) : C (FTP K U) :=
  updWhere (inside rankStart) F new

/-- regress.c:1306-1473 `ft_regress_run_rankadapt` with `opt_only_restricted`: parameters of the
rounded train inside, `v` (1e-4 in the code) for all others. -/
def kickParams [Zero K] (v : K) (F : FTP K U) (rounded : List K) (rankStart : List Nat) :
    C (FTP K U) := do
  let F ← updInside F rounded rankStart
  let n ← nparamsRestrict F rankStart
  updOutside F (List.replicate n v) rankStart

/-- regress.c:1306-1473 `ft_regress_run_rankadapt`, one interior rank; the state is (`ranks`,
`restrict_rank_opt`, `kicked`). -/
def kickOne (maxrank kick : Nat) (rounded : List Nat) (ii : Nat) (s : List Nat × List Nat × Bool) :
    C (List Nat × List Nat × Bool) := do
  let a ← rd rounded ii
  let b ← rd s.1 ii
  if a = b then do
    let rs ← wr s.2.1 (ii - 1) b
    let ranks ← wr s.1 ii (if maxrank < b + kick then maxrank else b + kick)
    .ok (ranks, rs, true)
  else .ok s

/-- regress.c:1306-1473 `ft_regress_run_rankadapt`: raising the ranks after rounding. -/
def kickRanks (dim maxrank kick : Nat) (rounded ranks rs : List Nat) :
    C (List Nat × List Nat × Bool) :=
  forR 1 dim (kickOne maxrank kick rounded) (ranks, rs, false)

end C3.Sl

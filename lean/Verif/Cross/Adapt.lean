/-
Rank adaptation of the cross approximation of discrete tensors (C147): c3/lib_tensdecomp/cross.c `tt_cross_adapt`.

`cross` is `tt_cross` (modelled in Cross/TtModel.lean) and `round` is `tt_round`; `rk` are the ranks of a train. The number of modes of the
rounded train is that of the options. Printing is left out; `malloc` never fails.
-/
import Verif.Cross.Model

namespace C3.Adp
open C3.Cross

/-- cross.h `struct tt_cross_opts`: what the adaptation reads and writes; `rest` is everything else (stored fibers, settings). -/
structure O (ρ : Type) where
  dim : Nat
  nvals : List Nat
  ranks : List Nat
  left : List (List (List Nat))
  right : List (List (List Nat))
  rest : ρ

variable {ρ T : Type}

/-- cross.c:807-812, 884-889: every inner rank that rounding did not change is increased; `true` = `done`. -/
def kick (dim kickrank : Nat) (rr : List Nat) (ranks : List Nat) : C (Bool × List Nat) :=
  forR 1 dim (fun ii s => do
    let a ← rd s.2 ii
    let b ← rd rr ii
    if a = b then do
      let v ← wr s.2 ii (a + kickrank)
      .ok (false, v)
    else .ok s) (true, ranks)

/-- cross.c:823-878: new index sets for the current ranks (first all zero, then the naive sets except for the last core). -/
def rebuild (o : O ρ) : C (O ρ) := do
  let s ← forN o.dim (fun ii s => do
    let nr ← rd o.ranks (ii + 1)
    let r ← wr s.2 ii (List.replicate nr (List.replicate (o.dim - ii - 1) 0))
    let nl ← rd o.ranks ii
    let l ← wr s.1 ii (List.replicate nl (List.replicate ii 0))
    .ok (l, r)) (o.left, o.right)
  let s ← forN (o.dim - 1) (fun ii s => do
    let p ← naiveSets o.dim o.ranks o.nvals ii
    let r ← wr s.2 ii p.1
    let l ← wr s.1 ii p.2
    .ok (l, r)) s
  .ok { o with left := s.1, right := s.2 }

/-- cross.c:804-812, 881-889: cross approximation, rounding, increase of the ranks. -/
def stage (cross : O ρ → C (T × O ρ)) (round : T → T) (rk : T → List Nat) (kickrank : Nat) (o : O ρ) : C (Bool × T × O ρ) := do
  let a ← cross o
  let t := round a.1
  let k ← kick a.2.dim kickrank (rk t) a.2.ranks
  .ok (k.1, t, { a.2 with ranks := k.2 })

/-- cross.c:817-893: the loop; `fuel` bounds the number of passes (`adapt` gives as many as there can be). -/
def loop (cross : O ρ → C (T × O ρ)) (round : T → T) (rk : T → List Nat) (kickrank maxiter : Nat) :
    Nat → Nat → Bool × T × O ρ → C (T × O ρ)
  | _, _, (true, t, o) => .ok (t, o)
  | 0, _, (false, _, _) => .error .diverge
  | fuel + 1, iter, (false, _, o) => do
    let o ← rebuild o
    let s ← stage cross round rk kickrank o
    loop cross round rk kickrank maxiter fuel (iter + 1) (if maxiter < iter + 1 then true else s.1, s.2)

/-- cross.c:792-895 `tt_cross_adapt`: the train and the options afterwards. -/
def adapt (cross : O ρ → C (T × O ρ)) (round : T → T) (rk : T → List Nat) (kickrank maxiter : Nat) (o : O ρ) : C (T × O ρ) := do
  let s ← stage cross round rk kickrank o
  if maxiter = 0 then .ok s.2
  else loop cross round rk kickrank maxiter (maxiter + 1) 0 s

end C3.Adp

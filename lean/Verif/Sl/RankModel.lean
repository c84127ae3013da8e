/-
Rank adaptation of a regression (regress.c).
-/
import Verif.Sl.RestrictModel
import Mathlib.Algebra.Order.Field.Basic

namespace C3.Sl

/-- What `ft_regress_run_rankadapt` calls, on the state `S` of the regression object and the
optimizer and on function trains `T`: `cross_validate_run`, `ft_regress_run`,
`function_train_round`, `function_train_get_ranks`, `ft_regress_reset_param`, the parameter updates of
the raised train (with start ranks; `kickParams` for the option `opt_only_restricted`), and
`ft_regress_reset_param` with `ft_param_update_params` and `function_train_copy` of the rounded train.
Cross validation and fit depend on the start ranks `restrict_rank_opt`, their first argument. -/
structure RaOps (K T S : Type) where
  cv : List Nat → S → C (K × S)
  fit : List Nat → S → C (T × S)
  round : T → S → C T
  ranksOf : T → List Nat
  reset : List Nat → S → C S
  start : T → List Nat → S → C S
  keep : T → S → C (T × S)

/-- Local variables of `ft_regress_run_rankadapt`; `done` stands for `break`. -/
structure Ra (K T S : Type) where
  ft : T
  err : K
  ranks : List Nat
  rs : List Nat
  st : S
  done : Bool

variable {K T S : Type} [LinearOrder K]

/-- regress.c:1306-1473 `ft_regress_run_rankadapt`: the test `allmax`. -/
def allMax (dim maxrank : Nat) (ranks : List Nat) : C Bool :=
  forR 1 dim (fun ii b =>
    if b then do
      let r ← rd ranks ii
      .ok (decide (¬ r < maxrank))
    else .ok false) true

/-- regress.c:1306-1473 `ft_regress_run_rankadapt`: start ranks and parameters of the raised train. -/
def raStart (L : RaOps K T S) (dim : Nat) (only : Bool) (rounded : T) (rs : List Nat) (s : S) :
    C (List Nat × S) :=
  if only then do
    let s ← L.start rounded rs s
    .ok (rs, s)
  else do
    let rs ← forN dim (fun ii l => wr l ii 0) rs
    .ok (rs, s)

/-- regress.c:1306-1473 `ft_regress_run_rankadapt`: the last part of the body, after raising the
ranks. -/
def raTry (L : RaOps K T S) (dim : Nat) (only : Bool) (rounded : T)
    (k : List Nat × List Nat × Bool) (q : Ra K T S) : C (Ra K T S) := do
  let s ← L.reset k.1 q.st
  let p ← raStart L dim only rounded k.2.1 s
  let e ← L.cv p.1 p.2
  if q.err < e.1 then do
    let t ← L.keep rounded e.2
    .ok ⟨t.1, q.err, k.1, p.1, t.2, true⟩
  else do
    let t ← L.fit p.1 e.2
    .ok ⟨t.1, e.1, k.1, p.1, t.2, false⟩

/-- regress.c:1306-1473 `ft_regress_run_rankadapt`: body of the loop. -/
def raStep (L : RaOps K T S) (dim maxrank kick : Nat) (only : Bool) (q : Ra K T S) :
    C (Ra K T S) :=
  if q.done then .ok q
  else do
    let rounded ← L.round q.ft q.st
    let am ← allMax dim maxrank q.ranks
    let k ← kickRanks dim maxrank kick (L.ranksOf rounded) q.ranks q.rs
    if k.2.2 = false ∨ am = true then .ok { q with ranks := k.1, rs := k.2.1, done := true }
    else raTry L dim only rounded k q

/-- regress.c:1306-1473 `ft_regress_run_rankadapt`: the final run, with all parameters free. -/
def raFinal (L : RaOps K T S) (dim : Nat) (finalize : Bool) (q : Ra K T S) : C (Ra K T S) :=
  if finalize then do
    let rs ← forN dim (fun ii l => wr l ii 0) q.rs
    let t ← L.fit rs q.st
    .ok { q with ft := t.1, rs := rs, st := t.2 }
  else .ok q

/-- regress.c:1306-1473 `ft_regress_run_rankadapt`: before the final run. -/
def raRun (L : RaOps K T S) (dim maxrank kick : Nat) (only : Bool) (rs : List Nat) (s : S) :
    C (Ra K T S) := do
  let e ← L.cv rs s
  let t ← L.fit rs e.2
  forN 10 (fun _ q => raStep L dim maxrank kick only q) ⟨t.1, e.1, L.ranksOf t.1, rs, t.2, false⟩

end C3.Sl

/-
Cross approximation with rank adaptation: lib_clinalg/ft.c `ftapprox_cross_rankadapt`.
-/
import Verif.Xapp.Model
import Verif.Round.Model

namespace C3.Xa
open C3.Ft C3.Round C3.Mv C3.Fw C3.Ind
variable {U X : Type} [Zero X]

/-- ft.c:3055-3069 `struct FtCrossArgs` without the ranks, which the algorithm changes. `fuel` bounds the passes of one cross
approximation in the model only. -/
structure CArgs where
  dim : Nat
  epsilon : ℝ
  maxiter : Nat
  fuel : Nat
  adapt : Bool
  epsround : ℝ
  kickrank : Nat
  maxranks : List Nat

/-- `cargs->ranks`, `ranks_found`, the right index sets and the flag `adapt`. -/
structure Ra (X : Type) where
  ranks : List Nat
  found : List Nat
  right : List (Option (CIndex X))
  adapt : Bool

/-- ft.c:3824-3830, 3882-3888. -/
def kickSize (found kick mx : Nat) : Nat := if found + kick ≤ mx then kick else mx - found

/-- ft.c:3822-3843, 3880-3899: raise rank `ii`, repeat the last node. -/
def kickAt (a : CArgs) (ii : Nat) (t : Ra X) : C (Ra X) := do
  let r ← rd t.ranks ii
  let mx ← rd a.maxranks (ii - 1)
  if r < mx then do
    let f ← rd t.found ii
    let ranks ← wr t.ranks ii (f + kickSize f a.kickrank mx)
    let c ← rd t.right (ii - 1)
    let c' ← copylast c (kickSize f a.kickrank mx)
    let right ← wr t.right (ii - 1) c'
    let n ← rd ranks ii
    let found ← wr t.found ii n
    pure ⟨ranks, found, right, true⟩
  else pure t

/-- ft.c:3821-3844, 3879-3900: `frk` are the ranks of the rounded train. -/
def kickStep (a : CArgs) (frk : List Nat) (ii : Nat) (t : Ra X) : C (Ra X) := do
  let f ← rd t.found ii
  let r ← rd frk ii
  if f = r then kickAt a ii t else pure t

/-- ft.c:3817-3845 and 3853, 3878-3901. -/
def kickAll (a : CArgs) (frk : List Nat) (t : Ra X) : C (Ra X) :=
  forR 1 a.dim (kickStep a frk) { t with adapt := false }

/-- ft.c:3851-3909: the loop; `.diverge` when the fuel is used up. The copy `ftc` is never looked at and left out. -/
noncomputable def raLoop (e : Ev ℝ U X) (o : XOps U X) (a : CArgs) (ref : FT ℝ U) :
    Nat → FT ℝ U → Ra X → Fwrap X ℝ → List (Option (CIndex X)) → C (FT ℝ U × Ra X)
  | 0, ftr, t, _, _ => if t.adapt then .error .diverge else pure (ftr, t)
  | n + 1, ftr, t, fw, left =>
    if t.adapt then do
      let c ← cross e o a.dim t.ranks a.epsilon a.maxiter a.fuel fw left t.right ref
      let r ← ftRound o.rd none o.thr c.1 a.epsround
      let t' ← kickAll a r.ranks { t with right := c.2.right }
      raLoop e o a ref n r t' c.2.fw c.2.left
    else pure (ftr, t)

/-- ft.c:3769-3921 `ftapprox_cross_rankadapt`: the train, and `cargs->ranks` and the index sets afterwards. -/
noncomputable def crossAdapt (e : Ev ℝ U X) (o : XOps U X) (a : CArgs) (n : Nat) (ranks : List Nat) (fw : Fwrap X ℝ)
    (left right : List (Option (CIndex X))) (ref : FT ℝ U) : C (FT ℝ U × Ra X) := do
  let c ← cross e o a.dim ranks a.epsilon a.maxiter a.fuel fw left right ref
  if a.adapt then do
    let r ← ftRound o.rd none o.thr c.1 a.epsround
    let t ← kickAll a r.ranks ⟨ranks, ranks.take (a.dim + 1), c.2.right, false⟩
    raLoop e o a ref n r t c.2.fw c.2.left
  else pure (c.1, ⟨ranks, ranks, c.2.right, false⟩)

end C3.Xa

/-
Algebra of orthogonal polynomial expansions (c3/lib_funcs/polynomials.c): copying, parameters, rounding, scaling, sums.

`thr` is `ZEROTHRESH` (= `DBL_EPSILON`, polynomials.c:54), `eps` is `DBL_EPSILON`; FOURIER is not modelled.
-/
import Verif.Poly.Model

namespace C3.Poly
open C3.Lin (dv)
variable {K : Type} [Field K] [LinearOrder K]

/-- polynomials.c:1774-1828 `orth_poly_expansion_copy`: a zeroed block of `nalloc` doubles receives the first `num_poly`
coefficients. `memmove` is a copy loop here. -/
def copy (f : Ope K) : C (Ope K) := do
  cassert (decide (f.nalloc ≥ f.num))
  let c ← forN f.num (fun ii c => do
    let v ← rd f.coeff ii
    wr c ii v) (List.replicate f.nalloc 0)
  pure { f with coeff := c }

/-- polynomials.c:1706-1711 `orth_poly_expansion_get_params`. -/
def getParams (f : Ope K) (param : List K) : C (List K × Nat) := do
  let p ← forN f.num (fun ii p => do
    let v ← rd f.coeff ii
    wr p ii v) param
  pure (p, f.num)

/-- `for (ii..n) coeff[ii] = param[ii]` (polynomials.c:1740-1742, 1750-1752, 1758-1760). -/
def putParams (n : Nat) (param coeff : List K) : C (List K) :=
  forN n (fun ii c => do
    let v ← rd param ii
    wr c ii v) coeff

/-- polynomials.c:1732-1765 `orth_poly_expansion_update_params`. -/
def updateParams (f : Ope K) (n : Nat) (param : List K) : C (Ope K) :=
  if f.num ≥ n then do
    let c ← putParams n param f.coeff
    let c ← forR n f.num (fun ii c => wr c ii 0) c
    pure { f with num := n, coeff := c }
  else if n ≤ f.nalloc then do
    let c ← putParams n param f.coeff
    pure { f with num := n, coeff := c }
  else do
    let c ← putParams n param (List.replicate n 0)
    pure { f with num := n, nalloc := n, coeff := c }

/-- polynomials.c:3526-3532: largest absolute coefficient. -/
def maxAbs (f : Ope K) : C K := do
  let c ← rd f.coeff 0
  forR 1 f.num (fun ii m => do
    let v ← rd f.coeff ii
    pure (if |v| > m then |v| else m)) |c|

/-- polynomials.c:3539 `fabs(c)/maxcoeff < thresh`; with `maxcoeff = 0` the quotient is NaN or infinite and the comparison
false. -/
def relSmall (thr m v : K) : Bool := !decide (m = 0) && decide (|v| / m < thr)

/-- polynomials.c:3536-3538. -/
def absCut (thr v : K) : K := if |v| < thr then 0 else v

/-- polynomials.c:3535-3546; state: coefficients and the flag `allzero`. -/
def roundCut (thr m : K) (n : Nat) (coeff : List K) : C (List K × Bool) :=
  forN n (fun jj (s : List K × Bool) => do
    let v ← rd s.1 jj
    if relSmall thr m (absCut thr v) then do
      let c ← wr s.1 jj 0
      pure (c, s.2)
    else do
      let c ← wr s.1 jj (absCut thr v)
      pure (c, false)) (coeff, true)

/-- polynomials.c:3554-3559: the loop that removes trailing small coefficients. -/
def trimEnd (thr : K) (coeff : List K) : Nat → C Nat
  | 0 => .ok 0
  | e + 1 => do
    let v ← rd coeff e
    if |v| < thr then trimEnd thr coeff e else pure (e + 1)

/-- polynomials.c:3548-3574. -/
def roundNum (thr : K) (n : Nat) (coeff : List K) (allzero : Bool) : C Nat :=
  if allzero then .ok 1
  else if n > 2 then do
    let e ← trimEnd thr coeff n
    pure (if e > 0 then e else n)
  else .ok n

/-- polynomials.c:3516-3583 `orth_poly_expansion_round`. -/
def round (thr : K) (f : Ope K) : C (Ope K) := do
  let m ← maxAbs f
  let s ← roundCut thr (m * f.num) f.num f.coeff
  let n ← roundNum thr f.num s.1 s.2
  pure { f with num := n, coeff := s.1 }

/-- In-place multiplication of the first `n` entries (polynomials.c:4665-4667, 4687-4689). -/
def mulAll (a : K) (n : Nat) (coeff : List K) : C (List K) :=
  forN n (fun ii c => do
    let v ← rd c ii
    wr c ii (v * a)) coeff

/-- polynomials.c:4660-4674 `orth_poly_expansion_flip_sign`. -/
def flipSign (f : Ope K) : C (Ope K) := do
  let c ← mulAll (-1) f.num f.coeff
  pure { f with coeff := c }

/-- polynomials.c:4682-4697 `orth_poly_expansion_scale`. -/
def scale (thr a : K) (f : Ope K) : C (Ope K) := do
  let c ← mulAll a f.num f.coeff
  round thr { f with coeff := c }

/-- `realloc`: the old contents up to the new size. The entries beyond the old size are indeterminate in C; they are zero here, and
all callers assign them before reading. -/
def realloc (c : List K) (n : Nat) : List K := c.take n ++ List.replicate (n - c.length) 0

/-- polynomials.c:4867-4872, 4899-4904: `y[ii] += a * x[ii]` with small results set to zero, for `ii < n`. -/
def addLoop (thr a : K) (x : List K) (n : Nat) (y : List K) : C (List K) :=
  forN n (fun ii y => do
    let v ← rd y ii
    let u ← rd x ii
    wr y ii (absCut thr (v + a * u))) y

/-- polynomials.c:4876-4892: enlargement of the coefficient array; result: block and recorded size. -/
def growTo (y : Ope K) (n : Nat) : C (List K × Nat) :=
  if n > y.nalloc then do
    let c ← forR y.num (n + 10) (fun ii c => wr c ii 0) (realloc y.coeff (n + 10))
    pure (c, n + 10)
  else pure (y.coeff, y.nalloc)

/-- polynomials.c:4893-4898: the orders only `x` has. -/
def newLoop (thr a : K) (x : List K) (lo hi : Nat) (y : List K) : C (List K) :=
  forR lo hi (fun ii y => do
    let u ← rd x ii
    wr y ii (absCut thr (a * u))) y

/-- polynomials.c:4905-4914: the number of orders after dropping trailing coefficients that do not exceed the threshold; at least
one remains. With no polynomial at all `num_poly-1` wraps and the loop runs over the heap. -/
def axTrim (thr : K) (coeff : List K) : Nat → C Nat
  | 0 => .error .oob
  | 1 => .ok 1
  | e + 2 => do
    let v ← rd coeff (e + 1)
    if |v| > thr then pure (e + 2) else axTrim thr coeff (e + 1)

/-- polynomials.c:4848-4917 `orth_poly_expansion_axpy`: `y <- a x + y`. -/
def axpy (thr eps a : K) (x y : Ope K) : C (Ope K) := do
  cassert (decide (x.fam.pt = y.fam.pt))
  cassert (decide (|x.lb - y.lb| < eps))
  cassert (decide (|x.ub - y.ub| < eps))
  if x.num < y.num then do
    let c ← addLoop thr a x.coeff x.num y.coeff
    pure { y with coeff := c }
  else do
    let g ← growTo y x.num
    let c ← newLoop thr a x.coeff y.num x.num g.1
    let c ← addLoop thr a x.coeff y.num c
    let n ← axTrim thr c x.num
    pure { y with num := n, nalloc := g.2, coeff := c }

/-- polynomials.c:4936-4959 `orth_poly_expansion_daxpby`. -/
def daxpby (thr eps a : K) (x : Option (Ope K)) (b : K) (y : Option (Ope K)) : C (Ope K) :=
  match x, y with
  | some x, some y => do
    let p ← copy y
    let p ← scale thr b p
    axpy thr eps a x p
  | some x, none => do
    let p ← copy x
    scale thr a p
  | none, some y => do
    let p ← copy y
    scale thr b p
  | none, none => .error .exit

/-- polynomials.c:4389-4399: `none` when the types differ, else the largest number of polynomials. -/
def combMax (n ldx : Nat) (xs : List (Ope K)) (pt : PT) : C (Option Nat) :=
  forN n (fun ii (s : Option Nat) =>
    match s with
    | none => pure none
    | some m => do
      let x ← rd xs (ii * ldx)
      pure (if x.fam.pt = pt then some (if x.num > m then x.num else m) else none)) (some 0)

/-- polynomials.c:4406-4410. -/
def combSum (n ldx : Nat) (xs : List (Ope K)) (ldc : Nat) (c : List K) (out : List K) : C (List K) :=
  forN n (fun kk out => do
    let x ← rd xs (kk * ldx)
    forN x.num (fun ii out => do
      let o ← rd out ii
      let w ← rd c (kk * ldc)
      let v ← rd x.coeff ii
      wr out ii (o + w * v)) out) out

/-- polynomials.c:4377-4422 `orth_poly_expansion_lin_comb`; `none` is the null pointer. -/
def linComb (thr : K) (n ldx : Nat) (xs : List (Ope K)) (ldc : Nat) (c : List K) : C (Option (Ope K)) := do
  let x0 ← rd xs 0
  let m ← combMax n ldx xs x0.fam.pt
  match m with
  | none => pure none
  | some m => do
    let out ← init x0.fam m x0.lb x0.ub
    let co ← combSum n ldx xs ldc c out.coeff
    let r ← round thr { out with map := x0.map, coeff := co }
    pure (some r)

/-- A read that only happens when the loop has the term. -/
def rdIf (u : Bool) (l : List K) (i : Nat) : C K := if u then rd l i else pure 0

/-- One loop of `orth_poly_expansion_sum3_up` over `lo ≤ ii < hi`; `ux`, `uy`, `uz` say which terms the loop has. -/
def s3loop (a b c : K) (ux uy uz : Bool) (x y : List K) (lo hi : Nat) (z : List K) : C (List K) :=
  forR lo hi (fun ii z => do
    let vz ← rdIf uz z ii
    let vx ← rdIf ux x ii
    let vy ← rdIf uy y ii
    wr z ii ((if uz then c * vz else 0) + (if ux then a * vx else 0) + (if uy then b * vy else 0))) z

/-- polynomials.c:4711-4830 `orth_poly_expansion_sum3_up`: `z <- a x + b y + c z`. The loop bounds are those of the code. In the
last two cases `realloc` releases `z->coeff`, whose new address is not stored, and the loops use the released block. -/
def sum3up (thr a : K) (x : Ope K) (b : K) (y : Ope K) (c : K) (z : Ope K) : C (Ope K) := do
  cassert (decide (x.fam.pt = y.fam.pt))
  cassert (decide (y.fam.pt = z.fam.pt))
  if z.num ≥ x.num ∧ z.num ≥ y.num then
    if x.num > y.num then do
      let d ← s3loop a b c true true true x.coeff y.coeff 0 y.num z.coeff
      let d ← s3loop a b c true false true x.coeff y.coeff y.num x.num d
      let d ← s3loop a b c false false true x.coeff y.coeff x.num z.num d
      round thr { z with coeff := d }
    else do
      let d ← s3loop a b c true true true x.coeff y.coeff 0 x.num z.coeff
      let d ← s3loop a b c false true true x.coeff y.coeff x.num y.num d
      let d ← s3loop a b c false false true x.coeff y.coeff x.num z.num d
      round thr { z with coeff := d }
  else if z.num ≥ x.num ∧ z.num < y.num then do
    let d ← s3loop a b c true true true x.coeff y.coeff 0 x.num (realloc z.coeff y.num)
    let d ← s3loop a b c false true true x.coeff y.coeff x.num z.num d
    let d ← s3loop a b c false true false x.coeff y.coeff z.num y.num d
    round thr { z with num := y.num, coeff := d }
  else if z.num < x.num ∧ z.num ≥ y.num then do
    let d ← s3loop a b c true true true x.coeff y.coeff 0 y.num (realloc z.coeff x.num)
    let d ← s3loop a b c true false true x.coeff y.coeff y.num z.num d
    let d ← s3loop a b c true false false x.coeff y.coeff z.num x.num d
    round thr { z with num := x.num, coeff := d }
  else .error .ub

end C3.Poly

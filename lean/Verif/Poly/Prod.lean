/-
Products of orthogonal polynomial expansions and their second derivatives as expansions (c3/lib_funcs/polynomials.c).

The tables `lpolycoeffs`, `hermpolycoeffs` of triple products come from headers that are not part of the sources (legtens.h,
hermtens.h); they are arguments here. FOURIER (complex coefficients) is modelled in Fft/FourierModel.lean.
-/
import Verif.Poly.Approx
import Verif.Poly.Integ

namespace C3.Poly
open C3.Lin (dv)
variable {K : Type} [Field K] [LinearOrder K]

/-- polynomials.c:780-787 `orth_poly_expansion_eval3`: product of the values of two expansions. -/
def eval3 (sq : K → K) (a b : Ope K) (x : K) : C K := do
  let u ← eval sq a x
  let v ← eval sq b x
  pure (u * v)

/-- polynomials.c:4144-4149, 4180-4185: all products of coefficients. -/
def allProds (a b : Ope K) : C (List K) :=
  forN a.num (fun ii l => forN b.num (fun jj l => do
    let u ← rd a.coeff ii
    let v ← rd b.coeff jj
    wr l (jj + ii * b.num) (u * v)) l) (List.replicate (a.num * b.num) 0)

/-- polynomials.c:4160-4170, 4196-4206, 4345-4354: contraction of the products with the table of triple products. -/
def triple (tab : List K) (na nb ld : Nat) (prods : List K) (nc : Nat) (c : List K) : C (List K) :=
  forN nc (fun kk c => forN na (fun ii c => forN nb (fun jj c => do
    let o ← rd c kk
    let t ← rd tab (ii + jj * 50 + kk * 2500)
    let p ← rd prods (jj + ii * ld)
    wr c kk (o + t * p)) c) c) c

/-- polynomials.c:4136-4172 and 4173-4208: the product by the table, for at most 49 polynomials each. The mapping is the one a new
expansion gets. -/
def prodTab (thr : K) (tab : List K) (a b : Ope K) : C (Ope K) := do
  let c ← init a.fam (a.num + b.num + 1) a.lb a.ub
  let l ← allProds a b
  let co ← triple tab a.num b.num b.num l (a.num + b.num + 1) c.coeff
  round thr { c with coeff := co }

/-- polynomials.c:4221-4226. -/
def sqCoeffs (f : Ope K) : C K :=
  forN f.num (fun ii s => do
    let c ← rd f.coeff ii
    pure (s + c ^ 2)) 0

/-- polynomials.c:4213-4248: the product by projection. -/
def prodApprox (thr : K) (sq : K → K) (Q : PT → Nat → Rule K) (a b : Ope K) : C (Ope K) := do
  let na ← sqCoeffs a
  let nb ← sqCoeffs b
  if na < thr ∨ nb < thr then do
    let c ← init a.fam 1 a.lb a.ub
    let co ← wr c.coeff 0 0
    pure { c with map := a.map, coeff := co }
  else do
    let c ← init a.fam (a.num + b.num + 5) a.lb a.ub
    let c ← approx Q (eval3 sq a b) { c with map := a.map }
    round thr c

/-- polynomials.c:4121-4265 `orth_poly_expansion_prod`; `legTab`, `hermTab` are the tables. The type of the second factor is not
looked at. -/
def prod (thr eps : K) (sq : K → K) (Q : PT → Nat → Rule K) (legTab hermTab : List K) (a b : Ope K) : C (Ope K) := do
  cassert (decide (|a.lb - b.lb| < eps))
  cassert (decide (|a.ub - b.ub| < eps))
  if a.fam.pt = .leg ∧ a.num < 50 ∧ b.num < 50 then prodTab thr legTab a b
  else if a.fam.pt = .herm ∧ a.num < 50 ∧ b.num < 50 then prodTab thr hermTab a b
  else prodApprox thr sq Q a b

/-- polynomials.c:4300-4318: `none` when the types differ, else the largest numbers of polynomials of the first factors, of the
second factors, and of their sums. -/
def spScan (n lda : Nat) (a : List (Ope K)) (ldb : Nat) (b : List (Ope K)) (pt : PT) : C (Option (Nat × Nat × Nat)) :=
  forN n (fun ii (s : Option (Nat × Nat × Nat)) =>
    match s with
    | none => pure none
    | some m => do
      let x ← rd a (ii * lda)
      let y ← rd b (ii * ldb)
      pure (if x.fam.pt ≠ y.fam.pt then none
        else if x.fam.pt ≠ pt then none
        else some (max m.1 x.num, max m.2.1 y.num, max m.2.2 (x.num + y.num)))) (some (0, 0, 0))

/-- polynomials.c:4336-4343: sums of products of coefficients. -/
def sumProds (n lda : Nat) (a : List (Ope K)) (ldb : Nat) (b : List (Ope K)) (ma mb : Nat) : C (List K) :=
  forN n (fun kk l => do
    let x ← rd a (kk * lda)
    let y ← rd b (kk * ldb)
    forN x.num (fun ii l => forN y.num (fun jj l => do
      let o ← rd l (jj + ii * mb)
      let u ← rd x.coeff ii
      let v ← rd y.coeff jj
      wr l (jj + ii * mb) (o + u * v)) l) l) (List.replicate (mb * ma) 0)

/-- polynomials.c:4322-4330: one product after the other. -/
def sumProdEach (thr eps : K) (sq : K → K) (Q : PT → Nat → Rule K) (legTab hermTab : List K) (n lda : Nat) (a : List (Ope K))
    (ldb : Nat) (b : List (Ope K)) : C (Ope K) := do
  let x ← rd a 0
  let y ← rd b 0
  let c ← prod thr eps sq Q legTab hermTab x y
  forR 1 n (fun ii c => do
    let x ← rd a (ii * lda)
    let y ← rd b (ii * ldb)
    let t ← prod thr eps sq Q legTab hermTab x y
    axpy thr eps 1 t c) c

/-- polynomials.c:4331-4358: all products by the table. -/
def sumProdTab (thr : K) (tab : List K) (n lda : Nat) (a : List (Ope K)) (ldb : Nat) (b : List (Ope K)) (x0 : Ope K)
    (m : Nat × Nat × Nat) : C (Ope K) := do
  let c ← init x0.fam m.2.2 x0.lb x0.ub
  let l ← sumProds n lda a ldb b m.1 m.2.1
  let co ← triple tab m.1 m.2.1 m.2.1 l m.2.2 c.coeff
  round thr { c with coeff := co }

/-- polynomials.c:4284-4359 `orth_poly_expansion_sum_prod`; `none` is the null pointer. -/
def sumProd (thr eps : K) (sq : K → K) (Q : PT → Nat → Rule K) (legTab hermTab : List K) (n lda : Nat) (a : List (Ope K))
    (ldb : Nat) (b : List (Ope K)) : C (Option (Ope K)) := do
  let x0 ← rd a 0
  let m ← spScan n lda a ldb b x0.fam.pt
  match m with
  | none => pure none
  | some m =>
    if m.1 > 49 ∨ m.2.1 > 49 ∨ x0.fam.pt ≠ .leg then do
      let c ← sumProdEach thr eps sq Q legTab hermTab n lda a ldb b
      pure (some c)
    else do
      let c ← sumProdTab thr legTab n lda a ldb b x0 m
      pure (some c)

/-- polynomials.c:2278, 2327-2333: the derivative of a Chebyshev or Hermite expansion by projection. -/
def derivOther (Q : PT → Nat → Rule K) (p out : Ope K) : C (Ope K) :=
  match p.fam.pt with
  | .cheb => approx Q (chebDerivEval p) out
  | _ => approx Q (derivEval p) out

/-- polynomials.c:2291-2341 `orth_poly_expansion_deriv` for all families. -/
def derivAll (thr : K) (sq : K → K) (Q : PT → Nat → Rule K) (f : Ope K) : C (Ope K) := deriv thr sq (derivOther Q) f

/-- polynomials.c:2427-2471 `orth_poly_expansion_dderiv`. -/
def dderiv (thr : K) (sq : K → K) (Q : PT → Nat → Rule K) (pin : Ope K) : C (Ope K) := do
  cassert (!pin.krist)
  let p ← copy pin
  let p ← round thr p
  let out ← copy p
  let out ← clear out
  if p.num < 2 then pure out
  else
    match p.fam.pt with
    | .cheb => do
      let out ← approx Q (chebDDerivEval p) { out with num := out.num - 2 }
      round thr out
    | _ => do
      let t ← derivAll thr sq Q p
      let out ← derivAll thr sq Q t
      round thr out

end C3.Poly

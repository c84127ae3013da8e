/-
Conversion to monomial coefficients (c3/lib_funcs/polynomials.c): `orth_to_standard_poly`, `orth_poly_expansion_to_standard_poly`,
`standard_poly_deriv`.
-/
import Verif.Poly.Model

namespace C3.Poly
open C3.Lin (dv)
variable {K : Type} [Field K] [LinearOrder K]

/-- polynomials.h `struct StandardPoly`: coefficients of the monomials. -/
structure StdPoly (K : Type) where
  num : Nat
  lb : K
  ub : K
  coeff : List K
  deriving DecidableEq

/-- polynomials.c:1050-1064 `standard_poly_init`. -/
def stdInit (num : Nat) (lb ub : K) : StdPoly K := ⟨num, lb, ub, List.replicate num 0⟩

/-- `memcpy(dst, src, n doubles)` between different blocks. -/
def memcpy (dst src : List K) (n : Nat) : C (List K) :=
  forN n (fun ii d => do
    let v ← rd src ii
    wr d ii v) dst

/-- The row of order `ii ≥ 2` in `c` from the rows `a` (order `ii-2`) and `b` (order `ii-1`): polynomials.c:1297-1303 with
`al = an`, `be = bn`, and polynomials.c:2741-2754 with `al = an m`, `be = bn + an off`; `ga = cn` in both. -/
def stdRow (al be ga : K) (ii : Nat) (a b c : List K) : C (List K) := do
  let b0 ← rd b 0
  let a0 ← rd a 0
  let c ← wr c 0 (be * b0 + ga * a0)
  let c ← forR 1 (ii - 1) (fun jj c => do
    let u ← rd b (jj - 1)
    let v ← rd b jj
    let w ← rd a jj
    wr c jj (al * u + be * v + ga * w)) c
  let u ← rd b (ii - 2)
  let v ← rd b (ii - 1)
  let c ← wr c (ii - 1) (al * u + be * v)
  wr c ii (al * v)

/-- polynomials.c:1296-1307: one iteration; state: `a`, `b`, `sp->coeff`. -/
def otsStep (fam : Fam K) (ii : Nat) (s : List K × List K × List K) : C (List K × List K × List K) := do
  let c ← stdRow (fam.an ii) (fam.bn ii) (fam.cn ii) ii s.1 s.2.1 s.2.2
  let a ← memcpy s.1 s.2.1 ii
  let b ← memcpy s.2.1 c (ii + 1)
  pure (a, b, c)

/-- polynomials.c:1278-1314 `orth_to_standard_poly`. -/
def orthToStd (fam : Fam K) (n : Nat) : C (StdPoly K) :=
  if n = 0 then do
    let c ← wr (List.replicate (n + 1) 0) 0 fam.c0
    pure ⟨n + 1, fam.lower, fam.upper, c⟩
  else if n = 1 then do
    let c ← wr (List.replicate (n + 1) 0) 0 fam.l0
    let c ← wr c 1 fam.l1
    pure ⟨n + 1, fam.lower, fam.upper, c⟩
  else do
    let a ← wr (List.replicate (n + 1) 0) 0 fam.c0
    let b ← wr (List.replicate (n + 1) 0) 0 fam.l0
    let b ← wr b 1 fam.l1
    let s ← forR 2 (n + 1) (otsStep fam) (a, b, List.replicate (n + 1) 0)
    pure ⟨n + 1, fam.lower, fam.upper, s.2.2⟩

/-- `sp->coeff[jj] += v * c[jj]` for `jj < n`. -/
def accum (v : K) (c : List K) (n : Nat) (sp : List K) : C (List K) :=
  forN n (fun jj sp => do
    let s ← rd sp jj
    let u ← rd c jj
    wr sp jj (s + v * u)) sp

/-- polynomials.c:2740-2760: one iteration; state: `a`, `b`, `c`, `sp->coeff`. The updates of `sp->coeff` follow the row here and
are interleaved with it in the code. -/
def etsStep (f : Ope K) (m off : K) (ii : Nat) (s : List K × List K × List K × List K) :
    C (List K × List K × List K × List K) := do
  let c ← stdRow (f.fam.an ii * m) (f.fam.bn ii + f.fam.an ii * off) (f.fam.cn ii) ii s.1 s.2.1 s.2.2.1
  let v ← rd f.coeff ii
  let sp ← accum v c (ii + 1) s.2.2.2
  let a ← memcpy s.1 s.2.1 ii
  let b ← memcpy s.2.1 c (ii + 1)
  pure (a, b, c, sp)

/-- polynomials.c:2725-2730: orders zero and one. -/
def etsFirst (f : Ope K) (m off : K) (sp : List K) : C (List K) := do
  let c0 ← rd f.coeff 0
  let sp ← wr sp 0 (c0 * f.fam.c0)
  if f.num > 1 then do
    let c1 ← rd f.coeff 1
    let s0 ← rd sp 0
    let sp ← wr sp 0 (s0 + c1 * (f.fam.l0 + f.fam.l1 * off))
    let s1 ← rd sp 1
    wr sp 1 (s1 + c1 * f.fam.l1 * m)
  else pure sp

/-- polynomials.c:2731-2763: the higher orders. -/
def etsRest (f : Ope K) (m off : K) (sp : List K) : C (List K) :=
  if f.num > 2 then do
    let a ← wr (List.replicate f.num 0) 0 f.fam.c0
    let b ← wr (List.replicate f.num 0) 0 (f.fam.l0 + f.fam.l1 * off)
    let b ← wr b 1 (f.fam.l1 * m)
    let s ← forR 2 f.num (etsStep f m off) (a, b, List.replicate f.num 0, sp)
    pure s.2.2.2
  else pure sp

/-- polynomials.c:2708-2768 `orth_poly_expansion_to_standard_poly`. The mapping is computed from the bounds instead of taken from the
expansion. Without polynomials `n = num_poly - 1` wraps; the first store then already is out of bounds. -/
def exToStd (f : Ope K) : C (StdPoly K) := do
  let m ← dv (f.fam.upper - f.fam.lower) (f.ub - f.lb)
  let off := f.fam.upper - m * f.ub
  let sp ← etsFirst f m off (List.replicate f.num 0)
  let sp ← etsRest f m off sp
  pure ⟨f.num, f.lb, f.ub, sp⟩

/-- polynomials.c:1074-1099 `standard_poly_deriv`. -/
def stdDeriv (p : StdPoly K) : C (StdPoly K) :=
  if p.num > 1 then do
    let c ← forR 1 p.num (fun ii c => do
      let v ← rd p.coeff ii
      wr c (ii - 1) (v * ii)) (List.replicate (p.num - 1) 0)
    pure ⟨p.num - 1, p.lb, p.ub, c⟩
  else pure ⟨1, p.lb, p.ub, List.replicate 1 0⟩

end C3.Poly

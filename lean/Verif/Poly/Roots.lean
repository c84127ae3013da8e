import Verif.Poly.Prod
import Verif.Poly.Std
import Mathlib.Data.List.Sort

/-! Real roots and extrema of polynomials (polynomials.c:4965-5715). Eigenvalues are computed by LAPACK, an argument here. -/

namespace C3.Poly
open C3.Lin (dv)
variable {K : Type} [Field K] [LinearOrder K]

/-- polynomials.c:5197-5217 and 5377-5393: the nonstandard companion matrix, column after column, of size `N >= 2`. `lo`, `hi` are the
entries above and below the diagonal of the inner columns, `last ii` is what is added to row `ii` of the last column, `g` the entry above the
diagonal there; `eps` is 1e-14. -/
def nsComp (N : Nat) (bn : Nat → K) (eps : K) (lo hi : Nat → K) (last : Nat → C K) (g : K) : C (List K) := do
  let b ← wr (List.replicate (N * N) 0) 1 1
  let v ← last 0
  let o ← rd b ((N - 1) * N)
  let b ← wr b ((N - 1) * N) (o + v)
  let b ← forR 1 (N - 1) (fun ii b => do
    cassert (decide (|bn ii| < eps))
    let b ← wr b (ii * N + ii - 1) (lo ii)
    let b ← wr b (ii * N + ii + 1) (hi ii)
    let v ← last ii
    let o ← rd b ((N - 1) * N + ii)
    wr b ((N - 1) * N + ii) (o + v)) b
  let o ← rd b (N * N - 2)
  let b ← wr b (N * N - 2) (o + g)
  let v ← last (N - 1)
  let o ← rd b (N * N - 1)
  wr b (N * N - 1) (o + v)

/-- polynomials.c:5203, 5211, 5217: addition to row `ii` of the last column, Legendre. -/
def legLast (sq : K → K) (N : Nat) (c : List K) (ii : Nat) : C K := do
  let h ← dv (-(N : K)) (2 * N - 1)
  let ci ← rd c ii
  let cN ← rd c N
  if ii = 0 then dv (h * ci) (cN * sq ((2 * N + 1 : Nat) : K))
  else do
    let q ← dv (h * ci * sq ((2 * ii + 1 : Nat) : K)) cN
    dv q (sq ((2 * N + 1 : Nat) : K))

/-- polynomials.c:5197-5217. -/
def legComp (sq : K → K) (eps : K) (p : Ope K) (N : Nat) : C (List K) :=
  nsComp N p.fam.bn eps (fun ii => (ii : K) / (2 * ii + 1)) (fun ii => ((ii : K) + 1) / (2 * ii + 1)) (legLast sq N p.coeff)
    (((N - 1 : Nat) : K) / (2 * ((N - 1 : Nat) : K) + 1))

/-- polynomials.c:5381, 5389, 5393: addition to row `ii` of the last column, Chebyshev. -/
def chebLast (N : Nat) (c : List K) (ii : Nat) : C K := do
  let ci ← rd c ii
  let g ← rd c N
  let q ← dv (1 / 2 * ci) g
  pure (-q)

/-- polynomials.c:5371-5393. -/
def chebComp (eps : K) (p : Ope K) (N : Nat) : C (List K) :=
  nsComp N p.fam.bn eps (fun _ => 1 / 2) (fun _ => 1 / 2) (chebLast N p.coeff) (1 / 2)

/-- `if (r < lo) r = lo; else if (r > hi) r = hi;` -/
def clampTo (lo hi r : K) : K := if r < lo then lo else if r > hi then hi else r

/-- polynomials.c:5272-5296, 5449-5477: selection of the eigenvalues `(real, img)`; the two loops over `keep` as one pass. -/
def keepRoots (ti td : K) (l : List (K × K)) : List K :=
  l.filterMap fun z => if |z.2| < ti ∧ -1 - td < z.1 ∧ z.1 < 1 + td then some (clampTo (-1) 1 z.1) else none

/-- polynomials.c:5158-5194, 5332-5366 (`comp` makes the matrix), then 5218-5307, 5394-5486: real roots in the domain. `eps`, `ti`, `td`
are 1e-14, 1e-6, 1e-12; `eig` stands for dgebal and dhseqr. Sorting by qsort is insertion sort here. -/
def famRoots (thr ti td : K) (comp : Ope K → Nat → C (List K)) (eig : Nat → List K → C (List (K × K))) (p : Ope K) : C (List K) := do
  let m ← dv (p.ub - p.lb) (p.fam.upper - p.fam.lower)
  let off := p.ub - m * p.fam.upper
  let p ← round thr p
  if p.num - 1 = 0 then pure []
  else if p.num - 1 = 1 then do
    let c1 ← rd p.coeff 1
    if |c1| ≤ thr then pure []
    else do
      let c0 ← rd p.coeff 0
      let root ← dv (-c0) c1
      if -1 - thr ≤ root ∧ root ≤ 1 - thr then pure [m * clampTo (-1) 1 root + off]
      else pure []
  else do
    let b ← comp p (p.num - 1)
    let l ← eig (p.num - 1) b
    pure (((keepRoots ti td l).map fun r => r * m + off).insertionSort (· ≤ ·))

/-- polynomials.c:5500-5525 `orth_poly_expansion_real_roots` with 5154-5308 `legendre_expansion_real_roots` and 5327-5487
`chebyshev_expansion_real_roots`. -/
def realRoots (thr eps ti td : K) (sq : K → K) (eig : Nat → List K → C (List (K × K))) (p : Ope K) : C (List K) :=
  match p.fam.pt with
  | .leg => famRoots thr ti td (legComp sq eps) eig p
  | .cheb => famRoots thr ti td (chebComp eps) eig p
  | .herm => .error .assertFail

/-- What the extremum routines need: thresholds, square root, quadrature rules, eigenvalues. -/
structure Tools (K : Type) where
  thr : K
  eps : K
  ti : K
  td : K
  sq : K → K
  Q : PT → Nat → Rule K
  eig : Nat → List K → C (List (K × K))

/-- The loop over the candidate points: polynomials.c:5557-5563, 5602-5608, 5697-5703; state: value and location. -/
def candLoop (T : Tools K) (g : K → K) (bt : K → K → Bool) (p : Ope K) (l : List K) (a : K × K) : C (K × K) :=
  forN l.length (fun ii (a : K × K) => do
    let r ← rd l ii
    let t ← eval T.sq p r
    pure (if bt (g t) a.1 then (g t, r) else a)) a

/-- The common text of polynomials.c:5538-5572, 5583-5616, 5681-5711: both ends, then the roots of the derivative. `g` is applied to the
values, `bt` compares. -/
def extremum (T : Tools K) (g : K → K) (bt : K → K → Bool) (p : Ope K) : C (K × K) := do
  let v ← eval T.sq p p.lb
  let w ← eval T.sq p p.ub
  let a := if bt (g w) (g v) then (g w, p.ub) else (g v, p.lb)
  if p.num > 2 then do
    let d ← derivAll T.thr T.sq T.Q p
    let l ← realRoots T.thr T.eps T.ti T.td T.sq T.eig d
    candLoop T g bt p l a
  else pure a

/-- polynomials.c:5538-5572 `orth_poly_expansion_max`: value and location. -/
def opeMax (T : Tools K) (p : Ope K) : C (K × K) := extremum T id (fun a b => decide (b < a)) p

/-- polynomials.c:5583-5616 `orth_poly_expansion_min`. -/
def opeMin (T : Tools K) (p : Ope K) : C (K × K) := extremum T id (fun a b => decide (a < b)) p

/-- polynomials.c:5643-5671: the candidate points of the caller; `wt` is `exp(-x^2/2)`. Result: absolute value and location. -/
def absmaxNodes (sq : K → K) (wt : K → K) (p : Ope K) (nodes : List K) : C (K × K) := do
  let wgt := fun (x v : K) => if p.fam.pt = .herm then v * wt x else v
  let x0 ← rd nodes 0
  let v0 ← eval sq p x0
  let r ← forN nodes.length (fun ii (s : K × K × K) => do
    let x ← rd nodes ii
    let v ← eval sq p x
    pure (if s.1 < wgt x |v| then (wgt x |v|, |v|, x) else s)) (wgt x0 |v0|, |v0|, x0)
  pure (r.2.1, r.2.2)

/-- polynomials.c:5633-5714 `orth_poly_expansion_absmax`; `nrm` is the result of `orth_poly_expansion_norm`. -/
def opeAbsmax (T : Tools K) (wt : K → K) (nrm : C K) (p : Ope K) (oargs : Option (List K)) : C (K × K) :=
  match oargs with
  | some nodes => absmaxNodes T.sq wt p nodes
  | none =>
    if p.fam.pt = .herm then .error .exit
    else do
      let n ← nrm
      if n < T.thr then pure (0, p.lb)
      else extremum T (fun v => |v|) (fun a b => decide (b < a)) p

/-- polynomials.c:4986-5000, 5013-5027: the root of a linear polynomial; with a zero leading coefficient the quotient is infinite or not a
number and no root is kept. -/
def stdLinear (p : StdPoly K) : C (List K) := do
  let c0 ← rd p.coeff 0
  let c1 ← rd p.coeff 1
  pure (if c1 = 0 then [] else if p.lb < -c0 / c1 ∧ -c0 / c1 < p.ub then [-c0 / c1] else [])

/-- polynomials.c:5002-5010: index of the last coefficient that is not small, but at least one. -/
def stdTrim (thr : K) (c : List K) : Nat → C Nat
  | 0 => .ok 0
  | n + 1 => do
    let v ← rd c (n + 1)
    if |v| < thr then (if n = 1 then pure 1 else stdTrim thr c n) else pure (n + 1)

/-- polynomials.c:5036-5047: the transpose of the companion matrix, column after column. -/
def stdComp (num : Nat) (c : List K) (n : Nat) : C (List K) := do
  let c0 ← rd c 0
  let cn ← rd c n
  let q ← dv (-c0) cn
  let b ← wr (List.replicate ((num - 1) * (num - 1)) 0) (n - 1) q
  forR 1 n (fun ii b => do
    let b ← wr b (ii * n + ii - 1) 1
    let ci ← rd c ii
    let q ← dv (-ci) cn
    wr b (ii * n + n - 1) q) b

/-- polynomials.c:5082-5087: `if (r < lb) r = lb; if (r > ub) r = ub;` -/
def stdClamp (lb ub r : K) : K :=
  let s := if r < lb then lb else r
  if s > ub then ub else s

/-- polynomials.c:4977-5125 `standard_poly_real_roots`; `ti`, `td` are 1e-7, 1e-8; `eig` stands for dgeev. -/
def stdRoots (thr ti td : K) (eig : Nat → List K → C (List (K × K))) (p : StdPoly K) : C (List K) :=
  if p.num = 1 then pure []
  else if p.num = 2 then stdLinear p
  else do
    let n ← stdTrim thr p.coeff (p.num - 1)
    if n = 1 then stdLinear p
    else if n = 0 then pure []
    else do
      let b ← stdComp p.num p.coeff n
      let l ← eig n b
      pure (l.filterMap fun z => if |z.2| < ti ∧ p.lb - td < z.1 ∧ z.1 < p.ub + td then
        some (stdClamp p.lb p.ub z.1) else none)

end C3.Poly

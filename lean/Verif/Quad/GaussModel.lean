/-
Gauss-Hermite and Gauss-Legendre rules (c3/lib_quadrature/quadrature.c:224-325). The LAPACK routine `dstev_` and the tables of
`getLegPtsWts` are parameters; exact real arithmetic.
-/
import Verif.Core.Mem
import Mathlib.Analysis.SpecialFunctions.Pow.Real

namespace C3.Quad

/-- What `dstev_` returns: eigenvalues, eigenvectors (column by column), the error code. -/
structure Eig where
  vals : List ℝ
  vecs : List ℝ
  info : Int

/-- quadrature.c:230-258, 289-320: fill the diagonal (`pts`) and the off-diagonal, call `dstev_`, square the first component of each
eigenvector. A nonzero error code ends the program. The block of workspace is not modelled. -/
noncomputable def gaussEig (dstev : Nat → List ℝ → List ℝ → Eig) (off : Nat → ℝ) (N : Nat) (pts wts : List ℝ) : C (List ℝ × List ℝ) := do
  let s ← forN N (fun ii s => do
    let p ← wr s.1 ii 0
    let o ← wr s.2 ii (off ii)
    pure (p, o)) (pts, List.replicate N 0)
  let r := dstev N s.1 s.2
  if r.info ≠ 0 then .error .exit
  else do
    let w ← forN N (fun ii w => do
      let v ← rd r.vecs (ii * N)
      let v' ← rd r.vecs (ii * N)
      wr w ii (v * v')) wts
    pure (r.vals, w)

/-- quadrature.c:224-259 `gauss_hermite`. -/
noncomputable def gaussHermite (dstev : Nat → List ℝ → List ℝ → Eig) (N : Nat) (pts wts : List ℝ) : C (List ℝ × List ℝ) :=
  gaussEig dstev (fun ii => √((ii + 1 : Nat) : ℝ)) N pts wts

/-- quadrature.c:272-325 `gauss_legendre`; `tab` stands for `getLegPtsWts`, which leaves the blocks alone below 2 points. -/
noncomputable def gaussLegendre (dstev : Nat → List ℝ → List ℝ → Eig) (tab : Nat → List ℝ × List ℝ) (N : Nat) (pts wts : List ℝ) : C (List ℝ × List ℝ) :=
  if N = 1 then do
    let p ← wr pts 0 0
    let w ← wr wts 0 1
    pure (p, w)
  else if N < 200 then
    if N < 2 then .ok (pts, wts) else .ok (tab N)
  else
    gaussEig dstev (fun ii => ((ii : ℝ) + 1) / √((2 * ((ii : ℝ) + 1) + 1) * (2 * ((ii : ℝ) + 1) - 1))) N pts wts

end C3.Quad

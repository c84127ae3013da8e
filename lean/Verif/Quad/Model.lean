/-
Quadrature rules (c3/lib_quadrature/quadrature.c). Exact real arithmetic, `cos` and `M_PI` are the cosine and the number pi.
The rules computed with LAPACK or read from tables (`gauss_hermite`, `gauss_legendre`) are in `Quad/GaussModel`; the tables themselves are not modelled.
-/
import Verif.Lin.Model
import Mathlib.Analysis.SpecialFunctions.Trigonometric.Basic

namespace C3.Quad
open C3.Lin (dv)

section
variable {K : Type} [Field K]

/-- quadrature.c:58-68 `trap_w`. The block of `N` weights is calloc'ed. -/
def trapW (N : Nat) (h : K) : C (List K) := do
  let w ← wr (List.replicate N 0) 0 (1 / 2 * h)
  let w ← forR 1 (N - 1) (fun ii w => wr w ii (1 * h)) w
  wr w (N - 1) (1 / 2 * h)

/-- quadrature.c:80-102 `simpson_w`. -/
def simpsonW (N : Nat) (h : K) : C (List K) := do
  let w ← wr (List.replicate N 0) 0 (1 / 3 * h)
  let w ← forR 1 (N - 1) (fun ii w => if ii % 2 = 0 then wr w ii (2 / 3 * h) else wr w ii (4 / 3 * h)) w
  if N % 2 = 0 then do
    let w ← wr w (N - 1) (1 / 2 * h)
    wr w (N - 2) (1 / 3 * h + 1 / 2 * h)
  else wr w (N - 1) (1 / 3 * h)

/-- quadrature.c:184-191 `rescale_cc`; state points and weights. -/
def rescaleCC (N : Nat) (pts wts : List K) (a b : K) : C (List K × List K) :=
  forN N (fun ii s => do
    let p ← rd s.1 ii
    let pts ← wr s.1 ii (1 / 2 * ((p + 1) * b - (p - 1) * a))
    let w ← rd s.2 ii
    let wts ← wr s.2 ii (1 / 2 * (b - a) * w)
    pure (pts, wts)) (pts, wts)
end

/-- quadrature.c:113-121 `cheb_gauss`. -/
noncomputable def chebGauss (N : Nat) (pts wts : List ℝ) : C (List ℝ × List ℝ) :=
  forN N (fun ii s => do
    let w ← wr s.2 ii (Real.pi / N)
    let p ← wr s.1 ii (Real.cos ((2 * ((ii : ℝ) + 1) - 1) * Real.pi / 2 / N))
    pure (p, w)) (pts, wts)

/-- quadrature.c:137-144: the points. `N - 1` of `N = 0` wraps around; that case is excluded where the function is used. -/
noncomputable def ccPts (N : Nat) (pts : List ℝ) : C (List ℝ) := do
  let p ← forR 1 (N - 1) (fun ii p => wr p ii (Real.cos (Real.pi * ((N - 1 - ii : Nat) : ℝ) / ((N - 1 : Nat) : ℝ)))) pts
  let p ← wr p 0 (-1)
  let p ← if N % 2 = 1 then wr p ((N - 1) / 2) 0 else pure p
  wr p (N - 1) 1

/-- quadrature.c:148-162: one weight before scaling, terms `jj = 1 .. (N-1)/2`. -/
noncomputable def ccWeight (N ii : Nat) (wts : List ℝ) : C (List ℝ) := do
  let w ← wr wts ii 1
  forR 1 ((N - 1) / 2 + 1) (fun jj w => do
    let v ← rd w ii
    wr w ii (v - (if 2 * jj = N - 1 then 1 else 2) * Real.cos (2 * jj * (ii * Real.pi / ((N - 1 : Nat) : ℝ))) / (4 * (jj : ℝ) ^ 2 - 1))) w

/-- quadrature.c:164-168. -/
noncomputable def ccScale (N : Nat) (wts : List ℝ) : C (List ℝ) := do
  let v ← rd wts 0
  let w ← wr wts 0 (v / ((N - 1 : Nat) : ℝ))
  let w ← forR 1 (N - 1) (fun ii w => do
    let v ← rd w ii
    wr w ii (2 * v / ((N - 1 : Nat) : ℝ))) w
  let v ← rd w (N - 1)
  wr w (N - 1) (v / ((N - 1 : Nat) : ℝ))

/-- quadrature.c:130-169 `clenshaw_curtis`; `N = 0` lets the loops run over the whole address space, here `oob`. -/
noncomputable def clenshawCurtis (N : Nat) (pts wts : List ℝ) : C (List ℝ × List ℝ) :=
  if N = 0 then .error .oob
  else if N = 1 then do
    let p ← wr pts 0 0
    let w ← wr wts 0 2
    pure (p, w)
  else do
    let p ← ccPts N pts
    let w ← forN N (fun ii w => ccWeight N ii w) wts
    let w ← ccScale N w
    pure (p, w)

/-- quadrature.c:202-220 `fejer2`; `memmove` copies `N` entries from position 1. -/
noncomputable def fejer2 (N : Nat) (pts wts : List ℝ) : C (List ℝ × List ℝ) :=
  if N > 2 then do
    let s ← clenshawCurtis (N + 2) (List.replicate (N + 2) 0) (List.replicate (N + 2) 0)
    let p ← forN N (fun ii p => do
      let v ← rd s.1 (ii + 1)
      wr p ii v) pts
    let w ← forN N (fun ii w => do
      let v ← rd s.2 (ii + 1)
      wr w ii v) wts
    pure (p, w)
  else clenshawCurtis N pts wts

end C3.Quad

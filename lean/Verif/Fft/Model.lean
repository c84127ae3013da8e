/-
Discrete Fourier transforms (c3/lib_fft/fft.c).

Complex numbers are exact, `cexp` is the exponential function and `M_PI` the number pi. A pointer into an array is the pair of the array and an
offset. Failing `malloc` is not modelled.
-/
import Verif.Core.Sum
import Mathlib.Analysis.SpecialFunctions.Trigonometric.Basic

namespace C3.Fft

open Complex (I exp)

/-- fft.c:60-62 `cexp(- 2 * M_PI * I * ii * jj / N)`. -/
noncomputable def ex (ii jj N : Nat) : ℂ := exp (-2 * Real.pi * I * ii * jj / N)

/-- fft.c:76-77 `cexp(2 * M_PI * I * ii * jj / N)`. -/
noncomputable def exi (ii jj N : Nat) : ℂ := exp (2 * Real.pi * I * ii * jj / N)

/-- fft.c:104 `cexp(- 2 * M_PI * I * ii / N)`. -/
noncomputable def twiddle (ii N : Nat) : ℂ := exp (-2 * Real.pi * I * ii / N)

/-- fft.c:54-66 `fft_slow`; `x` starts at position `ox` of its array, `X` at `oX`. -/
noncomputable def fftSlow (N : Nat) (x : List ℂ) (ox sx : Nat) (X : List ℂ) (oX sX : Nat) : C (List ℂ) :=
  forN N (fun ii X => do
    let X ← wr X (oX + ii * sX) 0
    forN N (fun jj X => do
      let a ← rd X (oX + ii * sX)
      let v ← rd x (ox + jj * sx)
      wr X (oX + ii * sX) (a + ex ii jj N * v)) X) X

/-- fft.c:71-83 `ifft_slow`. -/
noncomputable def ifftSlow (N : Nat) (x : List ℂ) (ox sx : Nat) (X : List ℂ) (oX sX : Nat) : C (List ℂ) :=
  forN N (fun ii X => do
    let X ← wr X (oX + ii * sX) 0
    let X ← forN N (fun jj X => do
      let a ← rd X (oX + ii * sX)
      let v ← rd x (ox + jj * sx)
      wr X (oX + ii * sX) (a + exi ii jj N * v)) X
    let a ← rd X (oX + ii * sX)
    wr X (oX + ii * sX) (a / N)) X

/-- fft.c:104-107 copies of the even and odd transforms. -/
def split (M sX : Nat) (X : List ℂ) (oX : Nat) : C (List ℂ × List ℂ) :=
  forN M (fun ii (eo : List ℂ × List ℂ) => do
    let a ← rd X (oX + ii * 2 * sX)
    let b ← rd X (oX + (ii * 2 * sX + sX))
    let e ← wr eo.1 ii a
    let o ← wr eo.2 ii b
    pure (e, o)) (List.replicate M 0, List.replicate M 0)

/-- fft.c:109-118 the butterflies. -/
noncomputable def join (N sX : Nat) (e o X : List ℂ) (oX : Nat) : C (List ℂ) :=
  forN (N / 2) (fun ii X => do
    let a ← rd e ii
    let b ← rd o ii
    let X ← wr X (oX + ii * sX) (a + twiddle ii N * b)
    wr X (oX + (ii * sX + N / 2 * sX)) (a - twiddle ii N * b)) X

/-- fft.c:91-126 `fft_base`; the two recursive calls, then the butterflies. -/
noncomputable def fftBase (N : Nat) (x : List ℂ) (ox sx : Nat) (X : List ℂ) (oX sX : Nat) : C (List ℂ) :=
  if N ≤ 2 then fftSlow N x ox sx X oX sX
  else do
    let X ← fftBase (N / 2) x ox (2 * sx) X oX (2 * sX)
    let X ← fftBase (N / 2) x (ox + sx) (2 * sx) X (oX + sX) (2 * sX)
    let eo ← split (N / 2) sX X oX
    join N sX eo.1 eo.2 X oX
termination_by N
decreasing_by all_goals omega

/-- fft.c:131-145 `ifft_base`; the arrays `x` and `X`. -/
noncomputable def ifftBase (N : Nat) (x : List ℂ) (sx : Nat) (X : List ℂ) (sX : Nat) : C (List ℂ × List ℂ) := do
  let x ← forN N (fun ii x => do
    let v ← rd x (ii * sX)
    wr x ii (starRingEnd ℂ v)) x
  let X ← fftBase N x 0 sx X 0 sX
  forN N (fun ii (s : List ℂ × List ℂ) => do
    let v ← rd s.1 (ii * sX)
    let x ← wr s.1 (ii * sX) (starRingEnd ℂ v)
    let a ← rd s.2 (ii * sX)
    let X ← wr s.2 (ii * sX) (starRingEnd ℂ a)
    let a ← rd X (ii * sX)
    let X ← wr X (ii * sX) (a / N)
    pure (x, X)) (x, X)

/-- fft.c:154-157 `isPowerOfTwo`. -/
def isPow2 (x : BitVec 64) : Bool := x != 0 && (x &&& (~~~x + 1)) == x

/-- fft.c:159-164 `is2`: the loop divides by two while the number is even and larger than one. -/
def is2 (x : Nat) : Bool :=
  if x % 2 = 0 ∧ x > 1 then is2 (x / 2) else x == 1
termination_by x
decreasing_by omega

/-- fft.c:166-182 `fft`: the returned code and the output array. -/
noncomputable def fft (N : BitVec 64) (x : List ℂ) (sx : Nat) (X : List ℂ) (sX : Nat) : C (Nat × List ℂ) := do
  cassert (sx == 1)
  cassert (sX == 1)
  if isPow2 N then do
    let X ← fftBase N.toNat x 0 sx X 0 sX
    pure (0, X)
  else pure (1, X)

/-- fft.c:184-199 `ifft`: code, input array, output array. -/
noncomputable def ifft (N : BitVec 64) (x : List ℂ) (sx : Nat) (X : List ℂ) (sX : Nat) : C (Nat × List ℂ × List ℂ) := do
  cassert (sx == 1)
  cassert (sX == 1)
  if isPow2 N then do
    let r ← ifftBase N.toNat x sx X sX
    pure (0, r)
  else pure (1, (x, X))

/-- fft.c:213-224: the even extension of the values, an array of `2*Nin` numbers (uninitialised: zero here, every entry is written). -/
noncomputable def mirror (Nin : Nat) (vals : List ℝ) : C (List ℂ) := do
  let v ← rd vals 0
  let xin ← wr (List.replicate (2 * Nin) (0 : ℂ)) 0 (v : ℂ)
  let xin ← forR 1 Nin (fun ii xin => do
    let v ← rd vals ii
    let xin ← wr xin ii (v : ℂ)
    wr xin (2 * Nin - ii) (v : ℂ)) xin
  let v ← rd vals Nin
  wr xin Nin (v : ℂ)

/-- fft.c:202-247 `cheb_vals_to_coeff`: code and coefficients. -/
noncomputable def chebCoeff (nvals : BitVec 64) (vals coeff : List ℝ) : C (Nat × List ℝ) :=
  if ¬ isPow2 (nvals - 1) then pure (1, coeff)
  else do
    let Nin := (nvals - 1).toNat
    let xin ← mirror Nin vals
    let xout ← fftBase (2 * Nin) xin 0 1 (List.replicate (2 * Nin) 0) 0 1
    let c ← forN nvals.toNat (fun ii c => do
      let a ← rd xout (nvals.toNat - 1 - ii)
      wr c ii (a.re / Nin)) coeff
    let a ← rd c 0
    let c ← wr c 0 (a / 2)
    let a ← rd c (nvals.toNat - 1)
    let c ← wr c (nvals.toNat - 1) (a / 2)
    pure (0, c)

end C3.Fft

/-
Array helpers (c3/lib_array/array.c) and the flat-index conversion of c3/lib_tensdecomp/cross.c.

`rnd` rounds the exact result of each `double` operation; `rnd = id` is exact arithmetic, `RoundNearest rnd` is binary64
(overflow not modelled). `size_t` values are natural numbers below `2^64`; arithmetic that can wrap is written with `% 2^64`.
-/
import Verif.Core.Mem
import Verif.Core.Float

namespace C3.Arr

/-- Wrap-around of `size_t`. -/
def wrap (n : Nat) : Nat := n % 2 ^ 64

/-- `N - 1` in `size_t`. -/
def pred64 (n : Nat) : Nat := wrap (n + (2 ^ 64 - 1))

/-- c3/lib_array/array.c:271-281 `linspace`. The division by `N-1 = 0` for `N = 1` gives a NaN or infinity that is not
stored (the loop is empty), so it is not modelled as an error. -/
def linspace (rnd : ℚ → ℚ) (min max : ℚ) (N : Nat) : C (List ℚ) := do
  let arrp := List.replicate N (0 : ℚ)
  let dx := rnd (rnd (max - min) / rnd (pred64 N : ℚ))
  let arrp ← forN (pred64 N) (fun ii a => wr a ii (rnd (rnd (rnd (ii : ℚ) * dx) + min))) arrp
  wr arrp (pred64 N) max

/-- `lrint(floor(x))` converted to `size_t`: values outside `long` are unspecified, negative values wrap. -/
def lrintFloor (x : ℚ) : C Nat :=
  if -2 ^ 63 ≤ ⌊x⌋ ∧ ⌊x⌋ < 2 ^ 63 then .ok (⌊x⌋ % 2 ^ 64).toNat else .error .ub

/-- c3/lib_array/array.c:325-334 `arange`; the array returned together with its length. A step of 0 gives an infinite or NaN
quotient whose conversion is unspecified. -/
def arange (rnd : ℚ → ℚ) (start stop step : ℚ) : C (Nat × List ℚ) :=
  if step = 0 then .error .ub else do
  let k ← lrintFloor (rnd (rnd (stop - start) / step))
  let N := wrap (k + 1)
  let a ← forN N (fun ii a => wr a ii (rnd (start + rnd (step * rnd (ii : ℚ))))) (List.replicate N 0)
  pure (N, a)

/-- c3/lib_array/array.c:344-352 `diag`. -/
def diag {K : Type} [Zero K] (N : Nat) (arr : List K) : C (List K) :=
  forN N (fun ii a => do
    let x ← rd arr ii
    wr a (ii * N + ii) x) (List.replicate (N * N) 0)

/-- `memmove(dst+doff, src, n*sizeof(double))`. -/
def move {K : Type} (n : Nat) (dst : List K) (doff : Nat) (src : List K) : C (List K) :=
  forN n (fun i d => do
    let x ← rd src i
    wr d (doff + i) x) dst

/-- c3/lib_array/array.c:366-376 `dconcat_cols`. -/
def dconcatCols {K : Type} [Zero K] (rows cols1 cols2 : Nat) (arr1 arr2 : List K) : C (List K) := do
  let a ← move (rows * cols1) (List.replicate (rows * (cols1 + cols2)) 0) 0 arr1
  move (rows * cols2) a (rows * cols1) arr2

/-- c3/lib_array/array.c:385-391 `dprod` (exact numbers). -/
def dprod {K : Type} [Monoid K] (N : Nat) (a : List K) : C K :=
  forN N (fun i p => do
    let x ← rd a i
    pure (p * x)) 1

/-- c3/lib_array/array.c:417-423 `iprod_sz`. -/
def iprodSz (N : Nat) (a : List Nat) : C Nat :=
  forN N (fun i p => do
    let x ← rd a i
    pure (wrap (p * x))) 1

/-- One step of the loop of `big_to_multi` for index `jj`; state: remaining index, product, result. The integer quotient
`b / prod` is converted to `double`. -/
def bigStep (rnd : ℚ → ℚ) (ns : List Nat) (jj : Nat) (st : Nat × Nat × List Nat) : C (Nat × Nat × List Nat) :=
  if st.2.1 = 0 then .error .ub else do
  let q ← lrintFloor (rnd ((st.1 / st.2.1 : Nat) : ℚ))
  let m ← wr st.2.2 jj q
  let n ← rd ns (jj - 1)
  if n = 0 then .error .ub
  else pure (wrap (st.1 + (2 ^ 64 - wrap (q * st.2.1))), st.2.1 / n, m)

/-- c3/lib_tensdecomp/cross.c:418-432 `big_to_multi`; `multi` is the caller's result array. -/
def bigToMulti (rnd : ℚ → ℚ) (big ndim : Nat) (ns multi : List Nat) : C (List Nat) := do
  let prod ← iprodSz (pred64 ndim) ns
  let st ← forN (pred64 ndim) (fun t => bigStep rnd ns (pred64 ndim - t)) (big, prod, multi)
  wr st.2.2 0 st.1

end C3.Arr

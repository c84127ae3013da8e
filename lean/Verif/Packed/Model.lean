/-
Packed and textual encodings of doubles (lib_array/array.c).  Doubles are rationals (`C3.Dbl`); every arithmetic
operation of the C code is rounded by `rnd`.
-/
import Verif.Core.Float
import Verif.Serial.Model

namespace C3.Packed
open C3.Serial

/-- C conversion of a `double` to `long long`: truncation, undefined out of range. -/
def toLongLong (r : ℚ) : C ℤ :=
  let t := if 0 ≤ r then ⌊r⌋ else ⌈r⌉
  if -2 ^ 63 ≤ t ∧ t < 2 ^ 63 then .ok t else .error .ub

/-- `1 + v`, `-v`, `llabs(v)-1` in `long long`: signed overflow is undefined. -/
def inLL (v : ℤ) : C ℤ := if -2 ^ 63 ≤ v ∧ v < 2 ^ 63 then .ok v else .error .ub

/-- array.c:428 `FRAC_MAX-1`, a `long long` constant. -/
def fracMaxM1 : ℤ := 2 ^ 63 - 1 - 1

/-- array.c:437-449 `pack`: exponent and fraction fields. `FRAC_MAX-1` is converted to `double`. -/
def pack (rnd : ℚ → ℚ) (x : ℚ) : C (ℤ × ℤ) := do
  let fe := frexp x
  let xf := rnd (|fe.1| - 1 / 2)
  if xf < 0 then pure (fe.2, 0)
  else do
    let c ← toLongLong (rnd (rnd (xf * 2) * rnd fracMaxM1))
    let frac ← inLL (1 + c)
    if x < 0 then do
      let frac ← inLL (-frac)
      pure (fe.2, frac)
    else pure (fe.2, frac)

/-- array.c:451-463 `unpack`; `ldexp(y,n)` is `rnd (y*2^n)`. -/
def unpack (rnd : ℚ → ℚ) (p : ℤ × ℤ) : C ℚ := do
  if p.2 = 0 then pure 0
  else do
    let a ← inLL |p.2|
    let a ← inLL (a - 1)
    let xf := rnd (rnd (rnd a / rnd fracMaxM1) / 2)
    let x := rnd (rnd (xf + 1 / 2) * 2 ^ p.1)
    if p.2 < 0 then pure (-x) else pure x

/-- array.c:464-475 `serialize_double_packed`: 4 bytes of exponent, 8 bytes of fraction. -/
def serPacked (rnd : ℚ → ℚ) (x : ℚ) : C Bytes := do
  let p ← pack rnd x
  pure (encLE 4 (BitVec.ofInt 32 p.1).toNat ++ encLE 8 (BitVec.ofInt 64 p.2).toNat)

/-- array.c:477-486 `deserialize_double_packed`. -/
def dePacked (rnd : ℚ → ℚ) (ser : Bytes) : C (ℚ × Bytes) := do
  let (b, rest) ← takeB 4 ser
  let (c, rest) ← takeB 8 rest
  let x ← unpack rnd ((BitVec.ofNat 32 (decLE b)).toInt, (BitVec.ofNat 64 (decLE c)).toInt)
  pure (x, rest)

/-- array.c:488-510 `serialize_double_arr_packed`: the first `12 n` bytes written (the allocation is `20 n` bytes; the
rest of it is left unspecified and not modelled). -/
def serArrPacked (rnd : ℚ → ℚ) : List ℚ → C Bytes
  | [] => .ok []
  | x :: xs => do
    let b ← serPacked rnd x
    let r ← serArrPacked rnd xs
    pure (b ++ r)

/-! ### Text form of a double -/

/-- Rounding of a non-negative rational to a natural number, ties to even (`printf` in the default rounding mode). -/
def roundEven (r : ℚ) : ℕ :=
  let n := ⌊r⌋.toNat
  let d := r - n
  if d < 1 / 2 then n else if 1 / 2 < d then n + 1 else if n % 2 = 0 then n else n + 1

/-- Decimal digits of `n`, most significant first, as ASCII. -/
def asciiNat (n : ℕ) : List UInt8 := (Nat.toDigits 10 n).map (fun c => UInt8.ofNat c.toNat)
def asciiInt (z : ℤ) : List UInt8 := (if z < 0 then [45] else []) ++ asciiNat z.natAbs

/-- Output of `snprintf("%3.14E:%d",res,exp)` as a function of the sign, the 15 significant decimal digits `N` of the
fraction and the exponent. For a fraction in [1/2,1) the decimal exponent is -1 (or 0 when the digits round up to 1,
and for zero). -/
def render (neg : Bool) (N : ℕ) (exp : ℤ) : List UInt8 :=
  let up := decide (10 ^ 15 ≤ N)
  let N' := if up then N / 10 else N
  let dig := asciiNat N'
  (if neg then [45] else []) ++ dig.take 1 ++ [46] ++ (if N = 0 then List.replicate 14 48 else dig.drop 1)
    ++ (if up || N == 0 then "E+00:".toUTF8.toList else "E-01:".toUTF8.toList) ++ asciiInt exp

/-- array.c:521-560 `serialize_double_to_text`. -/
def textOf (x : ℚ) : List UInt8 :=
  let fe := frexp x
  render (decide (x < 0)) (roundEven (|fe.1| * 10 ^ 15)) fe.2

/-- array.c:587-609 `serialize_darray_to_text` for `N ≥ 1` (for `N = 0` the bound `N-1` wraps around: undefined). -/
def textArr : List ℚ → C (List UInt8)
  | [] => .error .ub
  | [x] => .ok (textOf x)
  | x :: xs => do
    let r ← textArr xs
    pure (textOf x ++ [44] ++ r)

end C3.Packed

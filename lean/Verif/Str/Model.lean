/-
String helpers (lib_stringmanip/stringmanip.c:48-241).

A `char` array is the list of its allocated bytes; `strlen` scans for NUL and running off the end of the
allocation is `Err.oob`. `malloc` always succeeds. `size_t` counters do not wrap (strings shorter than 2^64).
-/
import Verif.Core.Mem
import Mathlib.Data.Int.Init
import Mathlib.Tactic.Ring

namespace C3.Str

abbrev Buf := List UInt8

/-- libc `strlen`. -/
def strlen : Buf → C Nat
  | [] => .error .oob
  | b :: r => if b = 0 then .ok 0 else (strlen r).map (· + 1)

/-- libc `memmove(buf+d, buf+s, n)` inside one allocation. -/
def memmove (buf : Buf) (d s n : Nat) : C Buf :=
  if s + n ≤ buf.length ∧ d + n ≤ buf.length then
    .ok (buf.take d ++ (buf.drop s).take n ++ buf.drop (d + n))
  else .error .oob

/-- Copy of `n` bytes from `buf+s` into a fresh allocation of `n+1` bytes, then NUL: the idiom
`out = malloc(n+1); memmove(out,buf+s,n); out[n]='\0'`. -/
def dupN (buf : Buf) (s n : Nat) : C Buf :=
  if s + n ≤ buf.length then .ok ((buf.drop s).take n ++ [0]) else .error .oob

/-! ### strip -/

/-- stringmanip.c:54-57, the loop `while (str[ii] == ' ') memmove(str,str+1,strlen(str)+1)`; each
iteration reads one byte past the terminating NUL (`strlen(str)+1` bytes from `str+1`). `fuel` bounds the iterations. -/
def stripBlankFront : Nat → Buf → C Buf
  | 0, _ => .error .diverge
  | fuel + 1, str => do
    let c ← rd str 0
    if c = 32 then do
      let n ← strlen str
      let str ← memmove str 0 1 (n + 1)
      stripBlankFront fuel str
    else pure str

/-- stringmanip.c:60-61 and 76-78, the loop `while (str[n]==c || str[n]=='\0') n--`; `n` is an `int`,
reading at a negative index is out of bounds. The argument is `n+1` so that `0` stands for `n = -1`. -/
def stripBack (c : UInt8) (str : Buf) : Nat → C Nat
  | 0 => .error .oob
  | n + 1 => do
    let x ← rd str n
    if x = c ∨ x = 0 then stripBack c str n else pure (n + 1)

/-- stringmanip.c:48-63 `strip_blank_ends`. -/
def stripBlankEnds (strin : Buf) : C Buf := do
  let n0 ← strlen strin
  let str ← stripBlankFront (n0 + 1) strin
  let n ← strlen str
  let m ← stripBack 32 str (n + 1)
  wr str m 0

/-- stringmanip.c:70-73, the loop `while (str[ii] == left) memmove(str,str+1,strlen(str+1))`. -/
def stripFront (left : UInt8) : Nat → Buf → C Buf
  | 0, _ => .error .diverge
  | fuel + 1, str => do
    let c ← rd str 0
    if c = left then do
      let n ← strlen (str.drop 1)
      let str ← memmove str 0 1 n
      stripFront left fuel str
    else pure str

/-- stringmanip.c:65-80 `strip_ends`. -/
def stripEnds (fuel : Nat) (strin : Buf) (left right : UInt8) : C Buf := do
  let str ← stripFront left fuel strin
  let n ← strlen str
  let m ← stripBack right str (n + 1)
  wr str m 0

/-! ### bite -/

/-- stringmanip.c:92-98, the search loop of `bite_string` (`n` is `strlen(strin)`, which the loop does
not change); `none` is the early `return NULL`. -/
def biteLoop (strin : Buf) (tok : UInt8) (n : Nat) : Nat → Nat → C (Option Nat)
  | 0, _ => .error .diverge
  | fuel + 1, ii => do
    let c ← rd strin ii
    if c = tok then pure (some ii)
    else if ii + 1 = n + 1 then pure none
    else biteLoop strin tok n fuel (ii + 1)

/-- stringmanip.c:82-108 `bite_string`: returns the new string (or NULL) and the modified input. -/
def biteString (strin : Buf) (tok : UInt8) : C (Option Buf × Buf) := do
  let n ← strlen strin
  match ← biteLoop strin tok n (n + 2) 0 with
  | none => pure (none, strin)
  | some ii => do
    let out ← dupN strin 0 ii
    let s ← memmove strin 0 (ii + 1) (n + 1 - ii - 1)
    pure (some out, s)

/-- stringmanip.c:116-127, the matching loop of `bite_string2`; `n`,`m` are the two string lengths.
Result: `(cut, ii)` after the loop. -/
def bite2Loop (strin tok : Buf) (n m : Nat) : Nat → Nat → Nat → C (Nat × Nat)
  | 0, ii, _ => .ok (0, ii)
  | fuel + 1, ii, nMatch => do
    let a ← rd strin ii
    let b ← rd tok nMatch
    let nMatch := if a = b then nMatch + 1 else 0
    if nMatch = m then pure (ii + 1 - nMatch, ii)
    else bite2Loop strin tok n m fuel (ii + 1) nMatch

/-- stringmanip.c:110-136 `bite_string2`. The `for` loop makes at most `strlen(strin)` iterations. -/
def biteString2 (strin tok : Buf) : C (Option Buf × Buf) := do
  let n ← strlen strin
  let m ← strlen tok
  let (cut, ii) ← bite2Loop strin tok n m n 0 0
  if 0 < cut then do
    let out ← dupN strin 0 cut
    let s ← memmove strin 0 (cut + m) (n + 1 - ii - 1)
    pure (some out, s)
  else pure (none, strin)

/-! ### parse, concat -/

/-- stringmanip.c:141-148: counting loop of `parse_string`. -/
def countTok (strin : Buf) (tok : UInt8) (n : Nat) : C Nat :=
  forN n (fun ii N => do
    let c ← rd strin ii
    pure (if c = tok then N + 1 else N)) 0

/-- Store into `out[ii]` where `out` was allocated with `N` slots and is filled left to right. -/
def pushSlot (N : Nat) (out : List Buf) (x : Buf) : C (List Buf) :=
  if out.length < N then .ok (out ++ [x]) else .error .oob

/-- stringmanip.c:138-173 `parse_string`: the array of pieces (each NUL terminated) and `*N`. -/
def parseString (strin : Buf) (tok : UInt8) : C (List Buf × Nat) := do
  let n ← strlen strin
  let N0 ← countTok strin tok n
  let N := N0 + 1
  let (out, track) ← forN n (fun jj (st : List Buf × Nat) => do
    let c ← rd strin jj
    if c = tok then do
      let p ← dupN strin st.2 (jj - st.2)
      let out ← pushSlot N st.1 p
      pure (out, jj + 1)
    else pure st) ([], 0)
  let p ← dupN strin track (n - track)
  let out ← pushSlot N out p
  pure (out, N)

/-- stringmanip.c:175-202 `concat_string`; `none` is NULL. -/
def concatString (a b : Option Buf) : C Buf := do
  let n1 ← match a with | none => pure 0 | some a => strlen a
  let n2 ← match b with | none => pure 0 | some b => strlen b
  pure ((a.getD []).take n1 ++ (b.getD []).take n2 ++ [0])

/-! ### itoa -/

/-- stringmanip.c:228: the literal `"zyx...a9876543210123456789abc...xyz"`. -/
def digitTable : Buf :=
  [122, 121, 120, 119, 118, 117, 116, 115, 114, 113, 112, 111, 110, 109, 108, 107, 106, 105, 104, 103,
   102, 101, 100, 99, 98, 97, 57, 56, 55, 54, 53, 52, 51, 50, 49, 48, 49, 50, 51, 52, 53, 54, 55, 56, 57,
   97, 98, 99, 100, 101, 102, 103, 104, 105, 106, 107, 108, 109, 110, 111, 112, 113, 114, 115, 116, 117,
   118, 119, 120, 121, 122, 0]

/-- stringmanip.c:225-229, the `do … while (value)` loop: state is the buffer and the write position;
`/` on `int` truncates towards zero (`Int.tdiv`). Returns buffer, position and the last `tmp_value`. -/
def itoaDigits (base : Int) : Nat → Buf → Nat → Int → C (Buf × Nat × Int)
  | 0, _, _, _ => .error .diverge
  | fuel + 1, res, ptr, value => do
    let tmp := value
    let value := value.tdiv base
    let idx := 35 + (tmp - value * base)
    if idx < 0 then .error .oob else do
    let ch ← rd digitTable idx.toNat
    let res ← wr res ptr ch
    if value ≠ 0 then itoaDigits base fuel res (ptr + 1) value
    else pure (res, ptr + 1, tmp)

/-- stringmanip.c:234-238, the loop swapping the two ends (`ptr1 < ptr`). -/
def swapLoop : Nat → Buf → Nat → Nat → C Buf
  | 0, _, _, _ => .error .diverge
  | fuel + 1, res, p1, p =>
    if p1 < p then do
      let tmp ← rd res p
      let x ← rd res p1
      let res ← wr res p x
      let res ← wr res p1 tmp
      swapLoop fuel res (p1 + 1) (p - 1)
    else pure res

/-- stringmanip.c:216-240 `itoa`; `result` is the caller's buffer. -/
def itoa (value : Int) (result : Buf) (base : Int) : C Buf :=
  if base < 2 ∨ base > 36 then wr result 0 0
  else do
    let (res, ptr, tmp) ← itoaDigits base (value.natAbs + 1) result 0 value
    let (res, ptr) ← if tmp < 0 then do
        let r ← wr res ptr 45
        pure (r, ptr + 1)
      else pure (res, ptr)
    let res ← wr res ptr 0
    swapLoop (ptr + 1) res 0 (ptr - 1)

end C3.Str

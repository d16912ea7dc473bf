import Verif.Base
/-! Model of the number/text conversions of src/strlib. -/
namespace Ulz.Numbers

/-- src/strlib/conv_cypher.c:3-4 (62 characters; the terminator is not counted). -/
def conv_cypher : List Byte := bytes! "0123456789ABCDEFGHIJKLMNOPQRSTUVWXYZabcdefghijklmnopqrstuvwxyz"

/-! ### itoa, utoa -/

/-- Store at a signed index, as `buffer[i]` with an `int` index does. -/
def wrInt (b : List Byte) (i : Int) (v : Byte) : C (List Byte) :=
  if 0 ≤ i then wr b i.toNat v else .error .oobWrite

/-- src/strlib/itoa.c:22-25 = src/strlib/utoa.c:15-18: the `do ... while(lentest)` loop; `len` counts from the
    given start. C division truncates (`Int.tdiv`). -/
def lenLoop (lentest : Int) (len : Int) : Int :=
  let len := len + 1
  let lentest' := lentest.tdiv 10
  if lentest' ≠ 0 then lenLoop lentest' len else len
  termination_by lentest.natAbs
  decreasing_by
    rename_i h
    have h' : lentest.tdiv 10 ≠ 0 := h
    have h1 : (lentest.tdiv 10).natAbs = lentest.natAbs / 10 := Int.natAbs_tdiv ..
    have h2 : (lentest.tdiv 10).natAbs ≠ 0 := by omega
    omega

/-- src/strlib/utoa.c:20-26 (and src/strlib/itoa.c:27-33, where `number` is non-negative by then). -/
def digitLoop (buffer : List Byte) (start len : Int) (number : Nat) : C (List Byte) := do
  let i := number % 10
  let buffer ← wrInt buffer (start + len - 1) (BitVec.ofNat 8 ((ch '0').toNat + i))
  let number' := (number - i) / 10
  if _h : number' ≠ 0 then digitLoop buffer start (len - 1) number' else pure buffer
  termination_by number
  decreasing_by omega

/-- src/strlib/utoa.c:11-28 (the return value is `buffer`). Line 14 converts to `int`: modulo 2^32. -/
def utoa (number : BitVec 32) (buffer : List Byte) : C (List Byte) := do
  let lentest : Int := number.toInt
  let len := lenLoop lentest 0
  let buffer ← wrInt buffer (0 + len) 0
  digitLoop buffer 0 len number.toNat

/-- src/strlib/itoa.c:11-35. `number >> 31` is non-zero exactly for negative numbers (arithmetic
    shift); `number * -1` overflows for INT_MIN. The digit loop then works on a non-negative number. -/
def itoa (number : BitVec 32) (buffer : List Byte) : C (List Byte) := do
  let n : Int := number.toInt
  if n < 0 then
    if n = -2^31 then throw .overflow
    let buffer ← wrInt buffer 0 (ch '-')
    let len := lenLoop (-n) 0
    let buffer ← wrInt buffer (1 + len) 0
    digitLoop buffer 1 len (-n).toNat
  else
    let len := lenLoop n 0
    let buffer ← wrInt buffer (0 + len) 0
    digitLoop buffer 0 len n.toNat

/-! ### numberToString -/

/-- include/strlib.h:27. -/
def NTS_PAD := 1
/-- include/strlib.h:28. -/
def NTS_SIGNED_TYPE := 2
/-- include/strlib.h:29. -/
def NTS_LOWERCASE_CHARS := 4

/-- src/strlib/numberToString.c:26-29; `base` is not 0. -/
def countLoop (base lentest : Nat) (hb : 2 ≤ base) : Nat :=
  if h : lentest ≠ 0 then countLoop base (lentest / base) hb + 1 else 0
  termination_by lentest
  decreasing_by exact Nat.div_lt_self (by omega) hb

/-- src/strlib/numberToString.c:37: fill `result[i ..]` (offset `r` in the buffer) with '0'. -/
def fillLoop (buf : List Byte) (r : Nat) : (n i : Nat) → C (List Byte)
  | 0, _ => pure buf
  | n + 1, i => do
    let buf ← wr buf (r + i) (ch '0')
    fillLoop buf r n (i + 1)

/-- src/strlib/numberToString.c:46-49: the character stored for digit value `i`. -/
def digitChar (base flags i : Nat) : C Byte :=
  if ¬(flags &&& NTS_LOWERCASE_CHARS ≠ 0 ∧ base ≤ 36 ∧ i ≥ 10 ∧ i < 36) then rd conv_cypher i
  else rd conv_cypher (i + 26)

/-- src/strlib/numberToString.c:44-54; recursion on `len`. -/
def digitsLoop (base flags : Nat) (buf : List Byte) (r : Nat) : (len number : Nat) → C (List Byte)
  | 0, _ => pure buf
  | len + 1, number =>
    if number = 0 then pure buf
    else do
      let i := number % base
      let buf ← wr buf (r + (len + 1 - 1)) (← digitChar base flags i)
      digitsLoop base flags buf r len ((number - i) / base)

/-- src/strlib/numberToString.c:56-59: number of leading '0' characters, looking at `n` characters
    from index `i` of `result` on. -/
def shrLoop (buf : List Byte) (r : Nat) : (n i : Nat) → C Nat
  | 0, _ => pure 0
  | n + 1, i => do
    if (← rd buf (r + i)) = ch '0' then pure ((← shrLoop buf r n (i + 1)) + 1) else pure 0

/-- src/strlib/numberToString.c:13-69. `flags` is the bit set as a number. Result: final content of
    `buffer` and the offset of the returned pointer (`none` for NULL).
    `!flags & NTS_PAD` parses as `(!flags) & 1`, i.e. it is true exactly for `flags == 0`; hence the
    `shr--` of line 60 is dead (a sign requires a flag) and left out.
    Division by base 0 is undefined; it can only happen for a non-zero number. -/
def numberToString (number : BitVec 64) (base : Nat) (buffer : List Byte) (maxlen flags : Nat) :
    C (List Byte × Option Nat) :=
  if base % 2 = 1 ∨ base > conv_cypher.length then pure (buffer, none)
  else
    let hasSign : Bool := (flags &&& NTS_SIGNED_TYPE ≠ 0) && (number >>> 63 == 1)
    let number : BitVec 64 := if hasSign then ~~~number + 1 else number
    let r := if hasSign then 1 else 0            -- offset of `result`
    if hb : 2 ≤ base then do
      let len := if maxlen = 0 then
          (let len := countLoop base number.toNat hb
           if len = 0 then 1 else len)
        else maxlen
      let buf ← fillLoop buffer r len 0
      let buf ← wr buf (r + len) 0
      if number = 0 then
        pure (buf, some (if flags = 0 then r + (len - 1) else r))
      else do
        let buf ← digitsLoop base flags buf r len number.toNat
        if flags = 0 then
          let shr ← shrLoop buf r len 0
          pure (buf, some (r + shr))
        else if hasSign then do
          let buf ← wr buf (r - 1) (ch '-')
          pure (buf, some (r - 1))
        else pure (buf, some r)
    else -- base is 0
      if number = 0 then do
        let len := if maxlen = 0 then 1 else maxlen
        let buf ← fillLoop buffer r len 0
        let buf ← wr buf (r + len) 0
        pure (buf, some (if flags = 0 then r + (len - 1) else r))
      else if maxlen = 0 then throw .divZero
      else do
        let buf ← fillLoop buffer r maxlen 0
        let _ ← wr buf (r + maxlen) 0
        throw .divZero

/-- src/strlib/uint64ToString.c:4-7 (buffer not NULL). -/
def uint64ToString (n : BitVec 64) (buffer : List Byte) := numberToString n 10 buffer 0 0
/-- src/strlib/int64ToString.c:4-7 (buffer not NULL); the `int64_t` is passed as `uint64_t` bits. -/
def int64ToString (n : BitVec 64) (buffer : List Byte) := numberToString n 10 buffer 0 NTS_SIGNED_TYPE
/-- src/strlib/uintToString.c:4-7. -/
def uintToString (n : BitVec 32) (buffer : List Byte) := numberToString (n.zeroExtend 64) 10 buffer 0 0
/-- src/strlib/intToString.c:4-7. -/
def intToString (n : BitVec 32) (buffer : List Byte) :=
  numberToString (n.signExtend 64) 10 buffer 0 NTS_SIGNED_TYPE

/-! ### strtoint, strtoint64 -/

/-- Result of a signed 64-bit operation: undefined behaviour if out of range (-2^63 .. 2^63-1). -/
def i64 (x : Int) : C Int :=
  if -9223372036854775808 ≤ x ∧ x ≤ 9223372036854775807 then pure x else .error .overflow

/-- src/strlib/strtoint64.c:8-11: loop over `i` from `n - 1 + lo` down to `lo` (`lo` is 1 if
    `str[0] == '-'`, else 0). `char` is signed. -/
def parse64 (str : List Byte) (lo : Nat) : (n : Nat) → (mul result : Int) → C Int
  | 0, _, result => pure result
  | n + 1, mul, result => do
    let x ← i64 (((← rd str (lo + n)).toInt - 48) * mul)
    let result ← i64 (result + x)
    let mul ← i64 (mul * 10)
    parse64 str lo n mul result

/-- src/strlib/strtoint64.c:3-14, `str` not NULL. -/
def strtoint64 (str : List Byte) (len : Nat) : C Int :=
  if len = 0 then pure 0
  else do
    if (← rd str 0) = ch '-' then
      let r ← parse64 str 1 (len - 1) 1 0
      i64 (-r)
    else parse64 str 0 len 1 0

/-- src/strlib/strtoint.c:8-11. `result += x` adds in 64 bits and converts to `int`, which gcc and
    clang define as reduction modulo 2^32. -/
def parse32 (str : List Byte) (lo : Nat) : (n : Nat) → (mul result : Int) → C Int
  | 0, _, result => pure result
  | n + 1, mul, result => do
    let x ← i64 (((← rd str (lo + n)).toInt - 48) * mul)
    let result := (← i64 (result + x)).bmod (2^32)
    let mul ← i64 (mul * 10)
    parse32 str lo n mul result

/-- src/strlib/strtoint.c:3-14, `str` not NULL. -/
def strtoint (str : List Byte) (len : Nat) : C Int :=
  if len = 0 then pure 0
  else do
    if (← rd str 0) = ch '-' then
      let r ← parse32 str 1 (len - 1) 1 0
      if r = -2147483648 then .error .overflow else pure (-r)
    else parse32 str 0 len 1 0

end Ulz.Numbers

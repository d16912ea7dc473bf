import Verif.Base
/-! Model of raw2hex / hex2raw / hexval (src/strlib). -/
namespace Ulz.Hex

/-- src/strlib/raw2hex.c:6. -/
def hextab : List Byte := bytes! "0123456789abcdef"

/-- src/strlib/raw2hex.c:7-11; the list is `src[i .. len-1]`. -/
def raw2hexLoop (dst : List Byte) (o : Nat) : List Byte → C (List Byte)
  | [] => wr dst o 0
  | x :: src => do
      let dst ← wr dst (o + 0) (← rd hextab (0xf &&& (x.toNat >>> 4)))
      let dst ← wr dst (o + 1) (← rd hextab (0xf &&& x.toNat))
      raw2hexLoop dst (o + 2) src

/-- src/strlib/raw2hex.c:4-12; `len` is the length of `src`. -/
def raw2hex (dst src : List Byte) : C (List Byte) := raw2hexLoop dst 0 src

/-- src/strlib/hex2raw.c:4-24; `none` is -1. -/
def hval (c : Byte) : Option Nat :=
  if c = ch '0' then some 0 else if c = ch '1' then some 1 else if c = ch '2' then some 2
  else if c = ch '3' then some 3 else if c = ch '4' then some 4 else if c = ch '5' then some 5
  else if c = ch '6' then some 6 else if c = ch '7' then some 7 else if c = ch '8' then some 8
  else if c = ch '9' then some 9
  else if c = ch 'a' ∨ c = ch 'A' then some 10 else if c = ch 'b' ∨ c = ch 'B' then some 11
  else if c = ch 'c' ∨ c = ch 'C' then some 12 else if c = ch 'd' ∨ c = ch 'D' then some 13
  else if c = ch 'e' ∨ c = ch 'E' then some 14 else if c = ch 'f' ∨ c = ch 'F' then some 15
  else none

/-- src/strlib/hex2raw.c:34-42; the list is what `hex` points to, `o` the offset of `out`.
    Line 37 shifts a negative `c` left when the first character is no hex digit: undefined behaviour
    (C11 6.5.7p4), recorded as `overflow`. A low digit of -1 makes `c` -1, stored as 0xff. -/
def hex2rawLoop (out : List Byte) (o : Nat) : List Byte → C (List Byte)
  | [] => .error .oobRead
  | h :: hex =>
    if h = 0 then pure out
    else match hval h with
      | none => .error .overflow
      | some c => match hex with
        | [] => .error .oobRead
        | h' :: hex' => do
          let v := match hval h' with
            | some c' => BitVec.ofNat 8 ((c <<< 4) ||| c')
            | none => 0xff
          let out ← wr out o v
          hex2rawLoop out (o + 1) hex'

/-- `strlen` on the bytes `s` points to; running off the object is an out-of-bounds read. -/
def strlen : List Byte → C Nat
  | [] => .error .oobRead
  | c :: s => if c = 0 then pure 0 else do pure ((← strlen s) + 1)

/-- Conversion of `hval(c)` to `unsigned char`, src/strlib/hex2raw.c:30 (-1 becomes 0xff). -/
def hvalByte (c : Byte) : Byte := match hval c with | some v => BitVec.ofNat 8 v | none => 0xff

/-- src/strlib/hex2raw.c:26-44. Result: final content of `out` and the return value. -/
def hex2raw (hex out : List Byte) : C (List Byte × Nat) := do
  let l ← strlen hex
  if l % 2 = 1 then
    match hex with
    | [] => throw .oobRead
    | h :: hex' => do
      let out ← wr out 0 (hvalByte h)
      let out ← hex2rawLoop out 1 hex'
      pure (out, (l + 1) / 2)
  else do
    let out ← hex2rawLoop out 0 hex
    pure (out, l / 2)

/-- src/strlib/hexval.c:3-15. -/
def hexval (c : Byte) : Nat :=
  if (ch 'A').toNat ≤ c.toNat ∧ c.toNat ≤ (ch 'F').toNat then 10 + (c.toNat - (ch 'A').toNat)
  else if (ch 'a').toNat ≤ c.toNat ∧ c.toNat ≤ (ch 'f').toNat then 10 + (c.toNat - (ch 'a').toNat)
  else if (ch '0').toNat ≤ c.toNat ∧ c.toNat ≤ (ch '9').toNat then c.toNat - (ch '0').toNat
  else 0

end Ulz.Hex

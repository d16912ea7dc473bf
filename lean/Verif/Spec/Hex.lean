import Verif.Base
/-! Specification of hexadecimal text. -/
namespace Ulz.Hex.Spec

/-- Lower-case hex digit of a number below 16. -/
def digit (n : Nat) : Byte := if n < 10 then BitVec.ofNat 8 (48 + n) else BitVec.ofNat 8 (97 + (n - 10))

/-- Value of a hex digit character of either case. -/
def value (c : Byte) : Option Nat :=
  let n := c.toNat
  if 48 ≤ n ∧ n ≤ 57 then some (n - 48)
  else if 97 ≤ n ∧ n ≤ 102 then some (n - 97 + 10)
  else if 65 ≤ n ∧ n ≤ 70 then some (n - 65 + 10)
  else none

def IsHex (c : Byte) : Prop := (value c).isSome
instance (c : Byte) : Decidable (IsHex c) := inferInstanceAs (Decidable (_ = true))

/-- Lower-case hex text of a byte string. -/
def text (bs : List Byte) : List Byte := bs.flatMap fun b => [digit (b.toNat / 16), digit (b.toNat % 16)]

/-- The byte stored for the digits `h` and `l`: 255 if `l` is no hex digit. -/
def pairByte (h l : Byte) : Byte :=
  match value h, value l with
  | some a, some b => BitVec.ofNat 8 (16 * a + b)
  | _, _ => 255

/-- A hex text read as one number, most significant digit first (`none` if not hex). -/
def number (s : List Byte) : Option Nat :=
  s.foldl (fun acc c => do pure ((← acc) * 16 + (← value c))) (some 0)

/-- Bytes read as one number, most significant first. -/
def beNumber (bs : List Byte) : Nat := bs.foldl (fun acc b => acc * 256 + b.toNat) 0

end Ulz.Hex.Spec

import Verif.Base
/-! Specification of numerals. -/
namespace Ulz.Numbers.Spec

/-- Digits of `n` in base `b ≥ 2`, most significant first, no leading zeros (`[0]` for 0). -/
def digitsOf (b n : Nat) (hb : 2 ≤ b) : List Nat :=
  if _h : n < b then [n] else digitsOf b (n / b) hb ++ [n % b]
  termination_by n
  decreasing_by exact Nat.div_lt_self (by omega) hb

/-- Number denoted by digits, most significant first. -/
def ofDigits (b : Nat) (ds : List Nat) : Nat := ds.foldl (fun acc d => acc * b + d) 0

/-- Canonical decimal numeral as ASCII text. -/
def dec (n : Nat) : List Byte := (digitsOf 10 n (by omega)).map fun d => BitVec.ofNat 8 (48 + d)

/-- Canonical decimal numeral of an integer. -/
def decInt (n : Int) : List Byte := if n < 0 then 45 :: dec n.natAbs else dec n.natAbs

/-- Digit character as in the documentation of `numberToString`: 0-9, A-Z, a-z; lower-case letters
    for 10..35 on request (bases up to 36). -/
def symbol (lower : Bool) (d : Nat) : Byte :=
  if d < 10 then BitVec.ofNat 8 (48 + d)
  else if d < 36 then (if lower then BitVec.ofNat 8 (97 + (d - 10)) else BitVec.ofNat 8 (65 + (d - 10)))
  else BitVec.ofNat 8 (97 + (d - 36))

end Ulz.Numbers.Spec

import Verif.Model.Output
import Verif.Spec.Format
import Verif.Spec.Stringptr
/-! Specification of logging and time stamps. -/
namespace Ulz.Output.Spec
open Numbers.Spec Stringptr.Spec

/-- The text of an argument of log_put: nothing for NULL strings and unknown types, the string, or the canonical decimal. -/
inductive Text : Vario → List Byte → Prop
  | null : Text (.stringptr none) []
  | str {p s} : Holds p s → Text (.stringptr (some p)) s
  | nullc : Text (.charstar none) []
  | chars {s junk} : 0 ∉ s → Text (.charstar (some (s ++ 0 :: junk))) s
  | int {v} : Text (.int v) (decInt v.toInt)
  | unsigned {v} : Text (.unsigned v) (dec v.toNat)
  | long {v} : Text (.long v) (decInt v.toInt)
  | ulong {v} : Text (.ulong v) (dec v.toNat)
  | other : Text .other []

/-- The texts of a list of arguments. -/
inductive Texts : List Vario → List (List Byte) → Prop
  | nil : Texts [] []
  | cons {v t vs ts} : Text v t → Texts vs ts → Texts (v :: vs) (t :: ts)

/-- Two and four decimal digits. -/
def two (n : Nat) : List Byte := [BitVec.ofNat 8 (48 + n / 10 % 10), BitVec.ofNat 8 (48 + n % 10)]
def four (n : Nat) : List Byte := two (n / 100) ++ two n

/-- A calendar time as localtime_r gives it: `year` is counted from 0 and `mon` from 1 here. `tm_year` is an `int`. -/
def IsTm (tm : Tm) (year : Int) (mon mday hour min sec : Nat) : Prop :=
  tm = ⟨year - 1900, mon - 1, mday, hour, min, sec⟩ ∧ (-2147483648 ≤ year - 1900 ∧ year - 1900 ≤ 2147483647) ∧ 1 ≤ mon ∧ mon ≤ 12 ∧ 1 ≤ mday ∧ mday ≤ 31 ∧ hour < 24 ∧ min < 60 ∧ sec ≤ 60

/-- YYYY-MM-DD HH:MM:SS, with a minus sign in front for years before 0. -/
def stamp (year : Int) (mon mday hour min sec : Nat) : List Byte :=
  (if year < 0 then bytes! "-" else []) ++ four year.natAbs ++ bytes! "-" ++ two mon ++ bytes! "-" ++ two mday ++ bytes! " " ++ two hour ++ bytes! ":" ++ two min ++ bytes! ":" ++ two sec

end Ulz.Output.Spec

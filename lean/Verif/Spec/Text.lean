import Verif.Base
import Verif.Spec.Numbers
/-! Specification vocabulary for text functions. -/
namespace Ulz.Text.Spec
open Numbers.Spec

/-- ASCII ranges. -/
def upper (c : Byte) : Prop := 65 ≤ c.toNat ∧ c.toNat ≤ 90
def lower (c : Byte) : Prop := 97 ≤ c.toNat ∧ c.toNat ≤ 122
def digit (c : Byte) : Prop := 48 ≤ c.toNat ∧ c.toNat ≤ 57
instance (c) : Decidable (upper c) := by unfold upper; infer_instance
instance (c) : Decidable (lower c) := by unfold lower; infer_instance
instance (c) : Decidable (digit c) := by unfold digit; infer_instance

/-- Upper-case form of a character. -/
def up (c : Byte) : Byte := if lower c then BitVec.ofNat 8 (c.toNat - 32) else c

/-- The needle `w` matches the text `s` at offset `p`, characters being compared by `R`. -/
def MatchAt (R : Byte → Byte → Prop) (s w : List Byte) (p : Nat) : Prop :=
  p + w.length ≤ s.length ∧ ∀ j, (h : j < w.length) → ∃ c, s[p + j]? = some c ∧ R c w[j]

/-- Case-insensitive comparison with an upper-case pattern. -/
def UcEq (c n : Byte) : Prop := up c = n
/-- Comparison where `*` in the pattern stands for any character. -/
def StarEq (c n : Byte) : Prop := n = 42 ∨ c = n

/-- Characters that separate words for `findword`: before a word ... -/
def sepBefore (c : Byte) : Prop := c ∈ [(32 : Byte), 9, 10, 58, 44, 46, 59, 45]
/-- ... and after a word (also carriage return). -/
def sepAfter (c : Byte) : Prop := sepBefore c ∨ c = 13

/-- Dotted-quad text of an address. -/
def dotted (a b c d : Byte) : List Byte :=
  dec a.toNat ++ 46 :: (dec b.toNat ++ 46 :: (dec c.toNat ++ 46 :: dec d.toNat))

/-- The pieces of `s` between dots. -/
def pieces : List Byte → List (List Byte)
  | [] => [[]]
  | c :: s =>
    if c = 46 then [] :: pieces s
    else match pieces s with
      | [] => [[c]]        -- does not happen
      | g :: gs => (c :: g) :: gs

end Ulz.Text.Spec

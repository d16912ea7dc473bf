import Verif.Spec.Text
/-! What a word in a text is, for `findword`. -/
namespace Ulz.Words.Spec
open Ulz.Text.Spec

/-- The word `w` (in upper case) stands at offset `p` of the text: in front of it is nothing or a separator, behind it nothing or a
    separator. -/
def WordAt (s w : List Byte) (p : Nat) : Prop :=
  MatchAt UcEq s w p ∧ (p = 0 ∨ ∃ c, s[p - 1]? = some c ∧ sepBefore c) ∧ (p + w.length = s.length ∨ ∃ c, s[p + w.length]? = some c ∧ sepAfter c)

/-- The result of a search is the first place of the word, and NULL only if there is none. -/
def First (s w : List Byte) (r : Option Nat) : Prop :=
  (∀ p, r = some p → WordAt s w p ∧ ∀ q, q < p → ¬ WordAt s w q) ∧ (r = none → ∀ q, ¬ WordAt s w q)

end Ulz.Words.Spec

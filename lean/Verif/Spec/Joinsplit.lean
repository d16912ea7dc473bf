import Verif.Base
/-! Specification: delimiters that can overlap themselves. -/
namespace Ulz.Joinsplit.Spec

/-- A proper part of the string, not empty, is both its beginning and its end. -/
def Bordered (d : List Byte) : Prop := ∃ b x y, b ≠ [] ∧ b.length < d.length ∧ d = b ++ x ∧ d = y ++ b

end Ulz.Joinsplit.Spec

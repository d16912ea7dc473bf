import Verif.Model.Psp
import Verif.Spec.Filelib
/-! Specification for paths with a drive. -/
namespace Ulz.Psp.Spec

/-- What may stand before the first slash: nothing, or a name that ends in a colon. -/
def Drive (d : List Byte) : Prop := ch '/' ∉ d ∧ (d = [] ∨ d.getLast? = some (ch ':'))

/-- The drive `d` and the absolute path `r`: `d ++ r`, but the root of a drive loses its slash. -/
def onDrive (d r : List Byte) : List Byte := if d ≠ [] ∧ r = [ch '/'] then d else d ++ r

end Ulz.Psp.Spec

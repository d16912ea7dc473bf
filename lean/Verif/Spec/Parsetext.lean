import Verif.Base
/-! Specification: the number that an arbitrary text is read as. -/
namespace Ulz.Parsetext.Spec

/-- The text as a decimal number, every character counting as its distance from '0' (characters are signed). -/
def value (g : List Byte) : Int := g.foldl (fun a c => a * 10 + (c.toInt - 48)) 0

/-- The text starts with a minus sign. -/
def minus (s : List Byte) : Bool := s.head? == some (ch '-')

/-- The text without its minus sign. -/
def body (s : List Byte) : List Byte := if minus s then s.tail else s

/-- Value of the first character of the text behind the sign. -/
def first (s : List Byte) : Int := ((body s).head?.map fun c => c.toInt - 48).getD 0

end Ulz.Parsetext.Spec

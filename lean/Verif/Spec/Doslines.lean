import Verif.Base
namespace Ulz.Doslines.Spec

/-- The text without the carriage returns and line feeds at its end. -/
def strip (s : List Byte) : List Byte := (s.reverse.dropWhile fun c => decide (c = ch '\r' ∨ c = ch '\n')).reverse

end Ulz.Doslines.Spec

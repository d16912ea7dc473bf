import Verif.Model.Mapdel
import Verif.Spec.Bmap
/-! Specification of deleting entries of an hbmap in a loop over it. -/
namespace Ulz.Bmap.Spec

/-- An entry as a loop sees it: iterator, key, value. -/
abbrev Seen := Iter × List Byte × List Byte

/-- Key and value of the entries seen. -/
def kvs (E : List Seen) : List (List Byte × List Byte) := E.map Prod.snd

/-- The entry is at an odd position (second, fourth, ...) of its bucket. -/
def oddPos (e : Seen) : Bool := iterIndex e.1 % 2 == 1

end Ulz.Bmap.Spec

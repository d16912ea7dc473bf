import Verif.Model.Sblist
namespace Ulz.Fromdata.Spec

/-- The items of `isz` bytes that `data` consists of; what is left over at the end does not count. -/
def items (isz : Nat) (data : List Byte) : List (List Byte) :=
  (List.range (data.length / isz)).map fun i => (data.drop (i * isz)).take isz

open Ulz.Sblist in
/-- Calls that do not make a list longer. -/
def Shrinks : Op → Prop
  | .set _ _ | .get _ | .delete _ | .pop => True
  | _ => False

end Ulz.Fromdata.Spec

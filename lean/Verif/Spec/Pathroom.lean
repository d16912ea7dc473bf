import Verif.Spec.Filelib
/-! Specification vocabulary: how many bytes it takes to normalize a path by writing the result from the left, taking components back at `..`. -/
namespace Ulz.Pathroom.Spec
open Ulz.Filelib.Spec (components normalize)

/-- The bytes of `/a/b/…/`, with a slash behind every component. -/
def width (dir : List (List Byte)) : Nat := 1 + (dir.map fun c => c.length + 1).sum

/-- The largest number of bytes written while following the components from the directory `dir`: a name is written behind the directory, with a slash
    if anything follows; `..` takes the last component back, and nothing is written any more if there is none. -/
def reach (dir : List (List Byte)) : List (List Byte) → Nat
  | [] => width dir
  | c :: cs =>
    if c = [] ∨ c = bytes! "." then reach dir cs
    else if c = bytes! ".." then if dir = [] then width dir else max (width dir) (reach dir.dropLast cs)
    else if cs = [] then width dir + c.length
    else reach (dir ++ [c]) cs

/-- The bytes needed for normalizing a path: what is written on the way, and the result with its terminator. A path that does not start with a slash is
    refused at once. -/
def room (path : List Byte) : Nat :=
  match path with
  | [] => 0
  | c :: rest =>
    if c = ch '/' then
      match normalize path with
      | none => reach [] (components rest)
      | some x => max (reach [] (components rest)) (x.length + 1)
    else 0

end Ulz.Pathroom.Spec

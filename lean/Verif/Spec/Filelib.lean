import Verif.Spec.Stringptr
/-! Specification vocabulary for filelib: what normalizing a path means, in terms of its components. -/
namespace Ulz.Filelib.Spec
open Ulz.Stringptr.Spec (join)

/-- The pieces of a text between slashes (`n` slashes separate `n + 1` pieces, which may be empty). -/
def components : List Byte → List (List Byte)
  | [] => [[]]
  | c :: s =>
    match components s with
    | [] => []
    | p :: ps => if c = ch '/' then [] :: p :: ps else (c :: p) :: ps

/-- Follow the components from the directory `dir`: empty ones and `.` stay there, `..` goes up (which is not
    possible from the root), any other goes down. -/
def resolve (dir : List (List Byte)) : List (List Byte) → Option (List (List Byte))
  | [] => some dir
  | c :: cs =>
    if c = [] ∨ c = bytes! "." then resolve dir cs
    else if c = bytes! ".." then if dir = [] then none else resolve dir.dropLast cs
    else resolve (dir ++ [c]) cs

/-- The normal form of an absolute path; `none` if it is not absolute or climbs above the root. -/
def normalize (path : List Byte) : Option (List Byte) :=
  match path with
  | [] => none
  | c :: rest =>
    if c = ch '/' then (resolve [] (components rest)).map fun dir => ch '/' :: join [ch '/'] dir else none

end Ulz.Filelib.Spec

import Verif.Spec.Inifile
/-! Specification: the sections of one name in a file, and what is reported about them. -/
namespace Ulz.Nextsec.Spec
open Ulz.Iniparser.Spec (Header Bracket)
open Ulz.Inifile.Spec (given Ini)

/-- The lines of the sections of a name, in the order of the file: for each header the lines up to the next bracket. -/
def sections (name : List Byte) : List (List Byte) → List (List (List Byte))
  | [] => []
  | l :: ls => if Header name l then (ls.takeWhile fun l => decide ¬Bracket l) :: sections name ls else sections name ls

/-- The line printed for a value: up to a NUL in it, and 4095 bytes in all. -/
def line (v : List Byte) : List Byte := (bytes! "value of section: " ++ v.takeWhile (· ≠ 0) ++ bytes! "\n").take 4095

/-- The lines printed for some sections: one for each section in which the key has a value that is not empty. -/
def report (key : List Byte) (secs : List (List (List Byte))) : List Byte :=
  ((secs.filterMap fun ls => ls.findSome? (given key)).filter (· ≠ [])).flatMap line

/-- The same for the sections of a file. -/
def iniReport (key : List Byte) (secs : Ini) : List Byte :=
  ((secs.filterMap fun s => (s.2.find? fun e => e.1 = key).map (·.2)).filter (· ≠ [])).flatMap line

end Ulz.Nextsec.Spec

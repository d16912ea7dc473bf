import Verif.Model.Stringptr
/-! Escaping with stringptr_replace: one call for each special character, and back in the reverse order. -/
namespace Ulz.Escape
open Ulz.Stringptr

/-- One call of src/stringptrlist/stringptr_replace.c:3-27 on a terminated string; the text of the result. `f` is the content of fresh memory
    (which is granted). -/
def repl (f : Nat → Byte) (what whit s : List Byte) : C (List Byte) := do
  let (_, r) ← replace (some f) ⟨s ++ [0], s.length⟩ ⟨what ++ [0], what.length⟩ ⟨whit ++ [0], whit.length⟩ (s.length + 2)
  match r with
  | none => .error .nullDeref
  | some r => rdN r.buf 0 r.size

/-- Calls of stringptr_replace for every entry of a table: the character is replaced by its text. -/
def escape (f : Nat → Byte) : List (Byte × List Byte) → List Byte → C (List Byte)
  | [], s => pure s
  | (c, b) :: tbl, s => do escape f tbl (← repl f [c] b s)

/-- The calls that undo it: the texts are replaced by the characters, in the reverse order. -/
def unescape (f : Nat → Byte) : List (Byte × List Byte) → List Byte → C (List Byte)
  | [], t => pure t
  | (c, b) :: tbl, t => do repl f b [c] (← unescape f tbl t)

end Ulz.Escape

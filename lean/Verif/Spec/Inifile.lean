import Verif.Spec.Iniparser
/-! Specification: what an INI file contains, and its text. -/
namespace Ulz.Inifile.Spec
open Ulz.Iniparser.Spec (Header Bracket)

/-- The value that a line gives to the key: what follows `key=` at its start. -/
def given (key line : List Byte) : Option (List Byte) :=
  if key ++ [ch '='] <+: line then some (line.drop (key.length + 1)) else none

/-- The value of a key in a section of a file given by its lines: the first value given to the key on the lines
    between the first header of the section and the next line that starts with a bracket. -/
def lineValue (ls : List (List Byte)) (sec key : List Byte) : Option (List Byte) :=
  ((ls.dropWhile fun l => decide ¬Header sec l).tail.takeWhile fun l => decide ¬Bracket l).findSome? (given key)

/-- A file: sections with a name and entries, an entry being a key with a value. -/
abbrev Ini := List (List Byte × List (List Byte × List Byte))

/-- Its lines: `[name]` and `key=value`. -/
def entryLine (e : List Byte × List Byte) : List Byte := e.1 ++ ch '=' :: e.2
def sectionLines (s : List Byte × List (List Byte × List Byte)) : List (List Byte) :=
  (ch '[' :: s.1 ++ [ch ']']) :: s.2.map entryLine
def lines (ini : Ini) : List (List Byte) := ini.flatMap sectionLines

/-- Its text. -/
def text (ini : Ini) : List Byte := ((lines ini).map (· ++ [ch '\n'])).flatten

/-- Names without `]`, keys without `=` that do not start with `[`, and no line feeds. -/
structure Clean (ini : Ini) : Prop where
  name : ∀ s ∈ ini, ch ']' ∉ s.1 ∧ ch '\n' ∉ s.1
  key : ∀ s ∈ ini, ∀ e ∈ s.2, ch '=' ∉ e.1 ∧ ch '\n' ∉ e.1 ∧ e.1.head? ≠ some (ch '[')
  value : ∀ s ∈ ini, ∀ e ∈ s.2, ch '\n' ∉ e.2

/-- The value of a key in the first section of that name. -/
def value (ini : Ini) (sec key : List Byte) : Option (List Byte) :=
  match ini.find? fun s => s.1 = sec with
  | none => none
  | some s => (s.2.find? fun e => e.1 = key).map (·.2)

end Ulz.Inifile.Spec

import Verif.Model.Iniparser
/-! Specification for the INI reader. A file is the list of its lines (texts). -/
namespace Ulz.Iniparser.Spec
open Ulz.Stringptr (SP)

/-- The line is a header of the section: `[name]`, whatever may follow it. -/
abbrev Header (name line : List Byte) : Prop := ch '[' :: name ++ [ch ']'] <+: line

/-- The line starts a section, of whatever name. -/
abbrev Bracket (line : List Byte) : Prop := [ch '['] <+: line

/-- The lines that belong to a section whose first line has the number `start`: all up to the next bracket. -/
def body (ls : List (List Byte)) (start : Nat) : List (List Byte) := (ls.drop start).takeWhile fun l => decide ¬Bracket l

/-- The numbers of the header lines of the section, from the line `start` on, in increasing order. -/
def headers (ls : List (List Byte)) (name : List Byte) (start : Nat) : List Nat :=
  (List.range' start (ls.length - start)).filter fun i => decide (∃ line ∈ ls[i]?, Header name line)

/-- The section below the header line number `h`. -/
def sect (ls : List (List Byte)) (h : Nat) : Sect := ⟨h + 1, (body ls (h + 1)).length⟩

/-- A client that goes through the sections of a name, beginning with `r`, until it gets the empty section. -/
def visit (l : List SP) (name : SP) : (fuel : Nat) → (r : Sect) → C (List Sect)
  | 0, _ => .error .hang
  | fuel + 1, r => do
    if r = ⟨0, 0⟩ then pure []
    else
      let n ← get_next_section l name r
      pure (r :: (← visit l name fuel n))

/-- The line defines the key: `key=value`. -/
abbrev Defines (key value line : List Byte) : Prop := line = key ++ ch '=' :: value

/-- A section header for the count: at least three bytes, `[`...`]` and then only blanks and tabs. -/
def Counted (line : List Byte) : Prop :=
  3 ≤ line.length ∧ ∃ mid blanks, line = ch '[' :: mid ++ [ch ']'] ++ blanks ∧ ∀ c ∈ blanks, c = ch ' ' ∨ c = ch '\t'

end Ulz.Iniparser.Spec

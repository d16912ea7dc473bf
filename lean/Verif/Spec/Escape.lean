import Verif.Base
/-! Tables for escaping. -/
namespace Ulz.Escape.Spec

/-- A table whose texts all begin with the mark `e`, followed by a letter: the first entry is for the mark itself; the letters differ from
    each other, from the special characters and from the mark, and there is no other mark in the texts. -/
structure Table (e : Byte) (tbl : List (Byte × List Byte)) : Prop where
  head : ∃ b rest, tbl = (e, b) :: rest
  marks : ∀ c b, (c, b) ∈ tbl → ∃ l r, b = e :: l :: r ∧ l ≠ e ∧ e ∉ r ∧ ∀ c' b', (c', b') ∈ tbl → c' ≠ l
  chars : (tbl.map (·.1)).Nodup
  letters : (tbl.map (·.2[1]?)).Nodup

/-- The entities of HTML. -/
def html : List (Byte × List Byte) := [(ch '&', bytes! "&amp;"), (ch '<', bytes! "&lt;"), (ch '>', bytes! "&gt;"), (ch '"', bytes! "&quot;")]

/-- Backslash sequences. -/
def backslash : List (Byte × List Byte) := [(ch '\\', bytes! "\\\\"), (ch '\n', bytes! "\\n")]

end Ulz.Escape.Spec

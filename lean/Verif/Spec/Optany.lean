import Verif.Model.Optparser
/-! What an argument gives to any stringptr: `t` is the C string at its pointer, `n` its size. -/
namespace Ulz.Optparser.Spec

/-- The argument is a dash and `b`; for sizes above 1 a second dash is left out, if there is one. -/
def Body (n : Nat) (a b : List Byte) : Prop :=
  (a = bytes! "-" ++ b ∧ ¬(1 < n ∧ b.head? = some (ch '-'))) ∨ (1 < n ∧ a = bytes! "--" ++ b)

/-- Argument number `i` gives the value at `r` (number of the argument, offset). With `=` the first `n` characters count, without it the whole C string. -/
def GivesAny (as : List (List Byte)) (n : Nat) (t : List Byte) (i : Nat) (r : Nat × Nat) : Prop :=
  ∃ a b, as[i]? = some a ∧ Body n a b ∧
    ((∃ v, b = t.take n ++ ch '=' :: v ∧ ch '=' ∉ t.take n ∧ r = (i, a.length - v.length)) ∨
     (b = t ∧ (ch '=' ∉ t ∨ t.head? = some (ch '=')) ∧ i + 1 < as.length ∧ r = (i + 1, 0)))

/-- The same for the size 0: any argument with a dash and no `=` behind its first character. -/
def GivesZero (as : List (List Byte)) (i : Nat) (r : Nat × Nat) : Prop :=
  ∃ b, as[i]? = some (bytes! "-" ++ b) ∧ (ch '=' ∉ b ∨ b.head? = some (ch '=')) ∧ r = (i, 2)

end Ulz.Optparser.Spec

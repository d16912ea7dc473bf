import Verif.Model.Optparser
/-! Specification for the option parser. -/
namespace Ulz.Optparser.Spec

/-- The parser was given the arguments `as` (the first one is the name of the program). -/
def Args (p : Op) (as : List (List Byte)) : Prop :=
  p.argc = as.length ∧ ∀ (i : Nat) a, as[i]? = some a → 0 ∉ a ∧ ∃ junk, p.argv[i]? = some (a ++ 0 :: junk)

/-- The argument is `-name` followed by `rest`; names of more than one character may have a second dash. -/
def Opt (name a rest : List Byte) : Prop :=
  a = bytes! "-" ++ name ++ rest ∨ (1 < name.length ∧ a = bytes! "--" ++ name ++ rest)

/-- Argument number `i` gives a value to the name: `-name=value`, the value being what follows the equals sign, or `-name`
    followed by another argument, which is then the value. `r` is where the value is: number of the argument, offset. -/
def Gives (as : List (List Byte)) (name : List Byte) (i : Nat) (r : Nat × Nat) : Prop :=
  ∃ a, as[i]? = some a ∧
    ((∃ v, Opt name a (ch '=' :: v) ∧ r = (i, a.length - v.length)) ∨ (Opt name a [] ∧ i + 1 < as.length ∧ r = (i + 1, 0)))

end Ulz.Optparser.Spec

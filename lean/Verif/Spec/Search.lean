import Verif.Spec.Text
/-! The places that the pattern search tries. -/
namespace Ulz.Search.Spec
open Ulz.Text.Spec

/-- The needle `w` fails at the place `p` of the text `s` with its character number `k`: those before it match, it does not. -/
def Fails (R : Byte → Byte → Prop) (s w : List Byte) (p k : Nat) : Prop :=
  (∀ j, (h : j < w.length) → j < k → ∃ c, s[p + j]? = some c ∧ R c w[j]) ∧ ∃ (h : k < w.length), ∃ c, s[p + k]? = some c ∧ ¬ R c w[k]

/-- The first place is tried, and after a failure the place behind the character that did not match (so that none of the places between
    is tried). -/
inductive Tried (R : Byte → Byte → Prop) (s w : List Byte) : Nat → Prop
  | first : Tried R s w 0
  | next {p k} : Tried R s w p → Fails R s w p k → Tried R s w (p + k + 1)

end Ulz.Search.Spec

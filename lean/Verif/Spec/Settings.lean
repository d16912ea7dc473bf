import Verif.Spec.Iniparser
/-! The settings in the lines of a file. -/
namespace Ulz.Settings.Spec
open Ulz.Iniparser.Spec (Header Bracket)

/-- Line number `i` is the setting of the key `k` in the section `s`, with the value `v`: the first line `k=...` below the first header
    of the section and before the next line with a bracket. -/
def Setting (ls : List (List Byte)) (s k : List Byte) (i : Nat) (v : List Byte) : Prop :=
  ∃ h < i, (∃ line, ls[h]? = some line ∧ Header s line) ∧ (∀ j < h, ∀ line, ls[j]? = some line → ¬Header s line) ∧
    (∀ j, h < j → j ≤ i → ∀ line, ls[j]? = some line → ¬Bracket line) ∧
    ls[i]? = some (k ++ ch '=' :: v) ∧ ∀ j, h < j → j < i → ∀ w, ls[j]? ≠ some (k ++ ch '=' :: w)

end Ulz.Settings.Spec

import Verif.Model.Wholefile
/-! Specification for whole-file input and output. -/
namespace Ulz.Wholefile.Spec

/-- The number of answers that are failures or transfer something. -/
def useful (answers : List (Option Nat)) : Nat := (answers.filter (· ≠ some 0)).length

/-- The lines of a list, each ended by a line feed. -/
def joined (ss : List (List Byte)) : List Byte := (ss.map (· ++ [ch '\n'])).flatten

/-- Call `2 i` writes string `i`, call `2 i + 1` its line feed: all of these transfer everything. -/
def AllAccepted (answers : Nat → Option Nat) (i : Nat) : List (List Byte) → Prop
  | [] => True
  | s :: ss => (∃ k, answers i = some k ∧ s.length ≤ k) ∧ (∃ k, answers (i + 1) = some k ∧ 1 ≤ k) ∧ AllAccepted answers (i + 2) ss

end Ulz.Wholefile.Spec

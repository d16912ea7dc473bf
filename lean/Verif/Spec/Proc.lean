import Verif.Model.Proc
/-! Specification for process_open. -/
namespace Ulz.Proc.Spec

/-- The descriptors of the pipes are new: not open before, and all different. -/
structure Legal (ans : Answers) (t : Table) : Prop where
  fresh : ∀ i r w, ans.pipe i = some (r, w) → t r = none ∧ t w = none ∧ r ≠ w
  apart : ∀ i j r w r' w', i ≠ j → ans.pipe i = some (r, w) → ans.pipe j = some (r', w') → r ≠ r' ∧ r ≠ w' ∧ w ≠ r' ∧ w ≠ w'

/-- The i-th pipe has descriptor `f`. -/
def Uses (ans : Answers) (i f : Nat) : Prop := ∃ r w, ans.pipe i = some (r, w) ∧ (f = r ∨ f = w)

/-- The system refuses nothing. -/
def Willing (ans : Answers) : Prop := ans.init = true ∧ (∀ k, k < 12 → ans.action k = true) ∧ ans.spawn = true

end Ulz.Proc.Spec

import Verif.Model.Stress
/-! Specification: when memory suffices. -/
namespace Ulz.Stress.Spec

/-- The program gets a block whenever it asks for one between two additions. -/
def Disturbed (e : Env) (n : Nat) : Prop := ∀ i, i < n → i % 4 = 0 → e.dist i ≠ none

/-- The list that grows by `b` items gets the memory for `n` items. -/
def Enough (e : Env) (n b : Nat) : Prop := ∀ i, i < n → i % b = 0 → e.mem i ≠ none

/-- The list that starts with 4 items and doubles gets the memory for `n` items. -/
def EnoughDoubling (e : Env) (n : Nat) : Prop := ∀ i, i < n → (i = 0 ∨ ∃ k, i = 4 * 2^k) → e.mem i ≠ none

/-- By how many items the list grows: what the program asks for, or as many as fit in 4096 bytes. -/
def blockItems (D : Nat) (blocks : Int) : Nat := if blocks = 0 then 4096 / size D else blocks.toNat

end Ulz.Stress.Spec

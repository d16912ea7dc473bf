import Verif.Spec.Treap
import Verif.Model.Balance
/-! Vocabulary for how deep the trees of `tlist` are. -/
namespace Ulz.Tlist.Spec

/-- One step of the generator. -/
def lcg (u : Nat) : Nat := u * 1103515245 + 12345

/-- The generator's state before draw `k`; a new list starts with 385. -/
def state : Nat → Nat
  | 0 => 385
  | k + 1 => lcg (state k)

/-- The priority of the item inserted as number `k` (counted from 0): the low 31 bits. -/
def draw (k : Nat) : Nat := state (k + 1) % 2^31

/-- A list of priorities with `v` inserted before position `i`. -/
def insertAt (ps : List Nat) (i v : Nat) : List Nat := ps.take i ++ v :: ps.drop i

/-- How many priorities were drawn, and the priorities of the items from left to right, after a call. An item keeps its
    priority. -/
def place (s : Nat × List Nat) : Op → Nat × List Nat
  | .insert i _ (some _) => if i ≤ s.2.length then (s.1 + 1, insertAt s.2 i (draw s.1)) else s
  | .append _ (some _) => (s.1 + 1, insertAt s.2 s.2.length (draw s.1))
  | .delete i => (s.1, s.2.eraseIdx i)
  | _ => s

/-- The priorities of the items after a sequence of calls on a new list. -/
def priorities (ops : List Op) : List Nat := (ops.foldl place (0, [])).2

/-- The item at `j` is on the way to the item at `i`: either `j` is left of `i` and its priority exceeds that of every item
    after it up to `i`, or it is not left of `i` and no item from `i` on before it has a higher priority. -/
def OnWay (ps : List Nat) (i j : Nat) : Prop :=
  (j < i ∧ ∀ k ≤ i, j < k → ps.getD k 0 < ps.getD j 0) ∨ (i ≤ j ∧ ∀ k < j, i ≤ k → ps.getD k 0 ≤ ps.getD j 0)

instance (ps : List Nat) (i j : Nat) : Decidable (OnWay ps i j) := by unfold OnWay; infer_instance

/-- How many items are on the way to the item at `i`, itself included. -/
def wayLength (ps : List Nat) (i : Nat) : Nat := (List.range ps.length).countP fun j => OnWay ps i j

/-- The item at `j` can be seen from the gap that begins at `a` and ends before `b`: either it is left of the gap and its
    priority exceeds that of every item between it and the gap, or it is right of the gap and no item between the gap and it has
    a higher priority. -/
def Sees (ps : List Nat) (a b j : Nat) : Prop :=
  (j < a ∧ ∀ k < a, j < k → ps.getD k 0 < ps.getD j 0) ∨ (b ≤ j ∧ ∀ k < j, b ≤ k → ps.getD k 0 ≤ ps.getD j 0)

instance (ps : List Nat) (a b j : Nat) : Decidable (Sees ps a b j) := by unfold Sees; infer_instance

/-- How many items can be seen from the gap. -/
def seen (ps : List Nat) (a b : Nat) : Nat := (List.range ps.length).countP fun j => Sees ps a b j

/-- All sequences of `n` indices at which `n` items can be inserted into a new list, one after the other. -/
def orders : Nat → List (List Nat)
  | 0 => [[]]
  | n + 1 => (orders n).flatMap fun s => (List.range (n + 1)).map fun i => s ++ [i]

end Ulz.Tlist.Spec

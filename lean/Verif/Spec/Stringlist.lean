import Verif.Model.Stringlist
import Verif.Spec.Sblist
/-! Specification of the pointer lists. -/
namespace Ulz.Stringlist.Spec
open Ulz.Sblist.Spec (Rep TotalPreorder Sorted)
open Ulz.Sblist (SB)

/-- The list object `l` is well formed and holds the pointers `ps`. -/
def Ptrs (l : SB) (ps : List Nat) : Prop :=
  l.itemsize = 8 ∧ Rep l (ps.map (Tglist.leBytes 8)) ∧ ∀ p ∈ ps, p < 2^64

/-- The strings and the addresses of their copies in the calls that returned 1. -/
def added (cs : List (List Byte × Option Nat × Alloc)) (rs : List Nat) : List (Nat × List Byte) :=
  (cs.zip rs).filterMap fun e => if e.2 = 1 then e.1.2.1.map fun p => (p, cstr e.1.1) else none

/-- ISO C's requirement on `qsort`: for a comparison function that is a total preorder the result is a sorted
    rearrangement of the items. -/
def QsortOk (qs : (List Byte → List Byte → Int) → List (List Byte) → List (List Byte)) : Prop :=
  ∀ cmp xs, TotalPreorder cmp → (qs cmp xs).Perm xs ∧ Sorted cmp (qs cmp xs)

end Ulz.Stringlist.Spec

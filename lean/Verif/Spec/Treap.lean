import Verif.Spec.Tlist
/-! Vocabulary for the shape of the trees `tlist` builds. -/
namespace Ulz.Tlist.Spec

/-- Insertions at the given indices, of the given items, `malloc` returning the given addresses. -/
def inserts (cs : List (Nat × List Byte × Nat)) : List Op := cs.map fun c => .insert c.1 c.2.1 (some c.2.2)

/-- The blocks `malloc` returns are not NULL and do not overlap, and the items have the right size. -/
def Lawful (itemsize : Nat) (cs : List (Nat × List Byte × Nat)) : Prop :=
  (∀ c ∈ cs, c.2.1.length = itemsize ∧ c.2.2 ≠ 0) ∧
  cs.Pairwise fun c e => c.2.2 + (hdr + itemsize) ≤ e.2.2 ∨ e.2.2 + (hdr + itemsize) ≤ c.2.2

end Ulz.Tlist.Spec

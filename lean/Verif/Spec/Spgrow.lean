import Verif.Model.Spgrow
/-! Specification for stringptrs that are one block. -/
namespace Ulz.Spgrow

/-- No block has the number that the next one gets, or a greater one. -/
def Fresh (h : Heap) : Prop := ∀ q, h.next ≤ q → h.objs q = none

end Ulz.Spgrow

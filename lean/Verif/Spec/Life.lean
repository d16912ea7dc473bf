import Verif.Model.Life
/-! Specification for memory: what every reachable state of the allocator satisfies. -/
namespace Ulz.Life

/-- The allocated blocks have different addresses, which are positive and not larger than the number of calls of the allocator. -/
structure Fresh (m : Mem) : Prop where
  nodup : m.live.Nodup
  le : ∀ p ∈ m.live, 0 < p ∧ p ≤ m.next

end Ulz.Life

import Verif.Spec.Tlist
/-! Specification vocabulary for tlist at the limit of its counters. -/
namespace Ulz.Tlimit.Spec
open Ulz.Tlist Ulz.Tlist.Spec

/-- The heap holds exactly this tree, as in `Has`, but the stored counts are the sizes modulo 2^32. -/
def HasM (h : Heap) : Tr → Prop
  | .nil => True
  | .node a p d l r => a ≠ 0 ∧ h.live a = true ∧ h.prior a = p ∧ h.data a = d ∧
      h.cnt a = (Tr.node a p d l r).size % 2^32 ∧ h.ptr (.left a) = l.rootA ∧ h.ptr (.right a) = r.rootA ∧
      HasM h l ∧ HasM h r

/-- `t` holds the tree `T`, whose nodes are distinct and the only ones allocated. -/
structure Holds (t : TL) (T : Tr) : Prop where
  root : t.heap.ptr .root = T.rootA
  has : HasM t.heap T
  nodup : T.addrs.Nodup
  live : ∀ a, t.heap.live a = true ↔ a ∈ T.addrs

end Ulz.Tlimit.Spec

import Verif.Model.Mapins
import Verif.Spec.Mapdel
/-! Specification of inserting entries into an hbmap in a loop over it. -/
namespace Ulz.Bmap.Spec

/-- The bucket, out of `n`, of a key. -/
def home (c : HCfg) (n : Nat) (k : List Byte) : Nat := (c.hash k).toNat % n

/-- The order of a loop over the map: by bucket, within a bucket by the comparison function. -/
def Before (c : HCfg) (n : Nat) (k k' : List Byte) : Prop :=
  home c n k < home c n k' ∨ (home c n k = home c n k' ∧ c.cmp k k' < 0)

/-- The insertions made while a loop that has read `T` reads the further entries. -/
def insFrom (body : List (List Byte × List Byte) → List Ins) :
    (T : List (List Byte × List Byte)) → List (List Byte × List Byte) → List Ins
  | _, [] => []
  | T, x :: T2 => body (T ++ [x]) ++ insFrom body (T ++ [x]) T2

/-- The insertions made by a loop that read the entries `T`. -/
def insOf (body : List (List Byte × List Byte) → List Ins) (T : List (List Byte × List Byte)) : List Ins :=
  insFrom body [] T

/-- An insertion as an operation on a map. -/
def insOp (i : Ins) : Op := .insert i.key i.val i.a1 i.a2

/-- The key was inserted while the loop was at an entry that comes later in the order of the loop. -/
def Behind (c : HCfg) (n : Nat) (body : List (List Byte × List Byte) → List Ins) (T : List (List Byte × List Byte))
    (k : List Byte) : Prop :=
  ∃ (m : Nat) (x : List Byte × List Byte), T[m]? = some x ∧ (∃ i ∈ body (T.take (m + 1)), i.key = k) ∧ Before c n k x.1

end Ulz.Bmap.Spec

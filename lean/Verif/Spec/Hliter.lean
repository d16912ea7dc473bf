import Verif.Model.Hliter
import Verif.Spec.Hashlist
/-! Specification of iterating over a hashlist that is added to, by what the program sees. Every item has a hash, `hashOf`; `n` is the
number of buckets. -/
namespace Ulz.Hliter.Spec
open Hashlist

/-- The items `hashlist_next` returned, in order. -/
def returned : List Obs → List (List Byte)
  | [] => []
  | .next (some v) :: os => v :: returned os
  | _ :: os => returned os

/-- The items added. -/
def added : List Obs → List (List Byte)
  | [] => []
  | .add _ v _ :: os => v :: added os
  | _ :: os => added os

/-- `hashlist_next` has returned NULL. -/
def Ended (os : List Obs) : Prop := Obs.next none ∈ os

/-- The bucket the iteration is in after these calls, when it was in `cur` before: that of the last item returned, -1 before the first one,
    `n` after NULL. -/
def where_ (n : Nat) (hashOf : List Byte → BitVec 32) (cur : Int) : List Obs → Int
  | [] => cur
  | .next (some v) :: os => where_ n hashOf ((hashOf v).toNat % n : Nat) os
  | .next none :: os => where_ n hashOf n os
  | .add _ _ _ :: os => where_ n hashOf cur os

/-- The items added to bucket `i` in time: while the iteration had not passed it. -/
def inTime (n : Nat) (hashOf : List Byte → BitVec 32) (i : Nat) (cur : Int) : List Obs → List (List Byte)
  | [] => []
  | .next (some v) :: os => inTime n hashOf i ((hashOf v).toNat % n : Nat) os
  | .next none :: os => inTime n hashOf i n os
  | .add _ v _ :: os => (if (hashOf v).toNat % n = i ∧ cur ≤ i then [v] else []) ++ inTime n hashOf i cur os

/-- All items added in time, bucket by bucket. -/
def allInTime (n : Nat) (hashOf : List Byte → BitVec 32) (os : List Obs) : List (List Byte) :=
  (List.range n).flatMap fun i => inTime n hashOf i (-1) os

/-- Calls with items of the right size, added under their hash, with memory available. -/
def Ok (ds : Nat) (hashOf : List Byte → BitVec 32) : Ev → Prop
  | .next => True
  | .add c => c.value.length = ds ∧ c.hash = hashOf c.value ∧ c.hdr = true ∧ ∃ f, c.a = some f

end Ulz.Hliter.Spec

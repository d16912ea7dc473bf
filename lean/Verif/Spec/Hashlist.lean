import Verif.Model.Hashlist
import Verif.Spec.Sblist
/-! Specification: a log of stored (hash, value) pairs, and the order of iteration. -/
namespace Ulz.Hashlist.Spec

abbrev Log := List (BitVec 32 × List Byte)

/-- The values logged under hashes congruent to `hash` modulo `n`, in order. -/
def matching (n : Nat) (L : Log) (hash : BitVec 32) : List (List Byte) :=
  (L.filter fun e => e.1.toNat % n = hash.toNat % n).map Prod.snd

/-- One add: stored and 0 is returned, or nothing is stored and 1 (the items' memory was refused) or -1
    (the header's memory was refused) is returned. -/
inductive Step (n : Nat) : Log → Add → Log → Int → Prop
  | stored {L c} : Step n L c (L ++ [(c.hash, c.value)]) 0
  | noItems {L c} : c.a = none → Step n L c L 1
  | noHeader {L c} : c.hdr = false → matching n L c.hash = [] → Step n L c L (-1)

inductive Steps (n : Nat) : Log → List Add → Log → List Int → Prop
  | nil {L} : Steps n L [] L []
  | cons {L c L' r cs L'' rs} : Step n L c L' r → Steps n L' cs L'' rs → Steps n L (c :: cs) L'' (r :: rs)

/-- What each bucket holds: `none` for a NULL bucket. -/
def BucketRep (h : HL) (B : List (Option (List (List Byte)))) : Prop :=
  h.buckets.length = B.length ∧
  ∀ i (h1 : i < h.buckets.length) (h2 : i < B.length),
    match h.buckets[i], B[i] with
    | none, none => True
    | some l, some xs => Sblist.Spec.Rep l xs ∧ l.count * l.itemsize < 2^64
    | _, _ => False

/-- What iteration yields: for each bucket that exists its values in order, but a single NULL for a
    bucket that exists and is empty. -/
def stream (B : List (Option (List (List Byte)))) : List (Option (List Byte)) :=
  B.flatMap fun
    | none => []
    | some [] => [none]
    | some xs => xs.map some

end Ulz.Hashlist.Spec

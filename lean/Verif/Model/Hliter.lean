import Verif.Model.Hashlist
/-! Model of a program that goes on adding to a hashlist while it iterates over it (src/hashlist/hashlist_iterator.c:14-27,
src/hashlist/hashlist.c:18-25). -/
namespace Ulz.Hliter
open Hashlist

/-- A call: `hashlist_next(h, &iter)` on the one iterator, or `hashlist_add`. -/
inductive Ev where
  | next
  | add (c : Add)

/-- What a call did, as the program sees it. -/
inductive Obs where
  | next (r : Option (List Byte))
  | add (hash : BitVec 32) (value : List Byte) (r : Int)
  deriving DecidableEq

/-- One call (src/hashlist/hashlist_iterator.c:19-27, src/hashlist/hashlist.c:18-25). -/
def step (h : HL) (it : Iter) : Ev → C (HL × Iter × Obs)
  | .next => do
    let (it, r) ← next h it
    pure (h, it, .next r)
  | .add c => do
    let (h, r) ← add c.hdr c.a h c.hash c.value
    pure (h, it, .add c.hash c.value r)

/-- A history of calls (src/hashlist, as above). -/
def run (h : HL) (it : Iter) : List Ev → C (HL × Iter × List Obs)
  | [] => pure (h, it, [])
  | e :: es => do
    let (h, it, o) ← step h it e
    let (h, it, os) ← run h it es
    pure (h, it, o :: os)

/-- A loop that adds something for every item it gets: `while((p = hashlist_next(h, &i))) hashlist_add(h, f(p), g(p));`
    (src/hashlist/hashlist_iterator.c:19-27, src/hashlist/hashlist.c:18-25), for at most `fuel` rounds; the allocations succeed
    with the bytes `a`. -/
def workLoop (hashOf : List Byte → BitVec 32) (g : List Byte → List Byte) (a : Nat → Byte) : (fuel : Nat) → HL → Iter → C HL
  | 0, _, _ => .error .hang
  | fuel + 1, h, it => do
    let (it, r) ← next h it
    match r with
    | none => pure h
    | some v => do
      let (h, _) ← add true (some a) h (hashOf (g v)) (g v)
      workLoop hashOf g a fuel h it

end Ulz.Hliter

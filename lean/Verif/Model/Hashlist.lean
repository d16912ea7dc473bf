import Verif.Model.Sblist
/-! Model of hashlist (src/hashlist). Buckets are sblist objects (Verif.Model.Sblist). -/
namespace Ulz.Hashlist
open Ulz.Sblist (SB)

/-- include/hashlist.h:11-15; `bucketcount` is the number of buckets; `none` is a NULL bucket. -/
structure HL where
  buckets : List (Option SB)
  datasize : Nat
  deriving DecidableEq

/-- src/hashlist/hashlist.c:4-15 when both allocations succeed (otherwise it returns NULL). -/
def new (bucketcount datasize : Nat) : HL := ⟨List.replicate bucketcount none, datasize⟩

/-- `hash % h->bucketcount`; a bucket count of 0 is a division by zero. -/
def slot (h : HL) (hash : BitVec 32) : C Nat :=
  if h.buckets.length = 0 then .error .divZero else pure (hash.toNat % h.buckets.length)

/-- Access to `h->buckets[i]`. -/
def bucket (h : HL) (i : Nat) : C (Option SB) :=
  match h.buckets[i]? with
  | some b => pure b
  | none => .error .oobRead

/-- src/hashlist/hashlist.c:20-23: the bucket at `i`, created if missing; `hdr` is whether the allocation
    of the sblist header succeeds (`none`: it failed). -/
def ensure (h : HL) (i : Nat) (hdr : Bool) : C (Option SB) := do
  match ← bucket h i with
  | some l => pure (some l)
  | none => if hdr then do pure (some (← Sblist.init h.datasize 8)) else pure none

/-- src/hashlist/hashlist.c:18-25. `hdr`, `a`: what the allocator does for the header and the items. -/
def add (hdr : Bool) (a : Alloc) (h : HL) (hash : BitVec 32) (value : List Byte) : C (HL × Int) := do
  let i ← slot h hash
  match ← ensure h i hdr with
  | none => pure (h, -1)
  | some l => do
    let (l, r) ← Sblist.add a l value
    pure ({ h with buckets := h.buckets.set i (some l) }, if r = 0 then 1 else 0)

/-- src/hashlist/hashlist.c:28-30. -/
def get (h : HL) (hash : BitVec 32) : C (Option SB) := do bucket h (← slot h hash)

/-- include/hashlist.h:17-24 (`pos` and `bucket_iter.pos`, both `ssize_t`). -/
structure Iter where
  bpos : Int
  pos : Int
  deriving DecidableEq

/-- src/hashlist/hashlist_iterator.c:14-17. -/
def iterInit : Iter := ⟨-1, -1⟩

/-- src/hashlist/hashlist_iterator.c:9: the loop that skips NULL buckets, from position `p` on. -/
def skipNull (h : HL) (p : Nat) : Nat :=
  if _h : p < h.buckets.length then
    match h.buckets[p] with
    | some _ => p
    | none => skipNull h (p + 1)
  else p
  termination_by h.buckets.length - p

/-- src/hashlist/hashlist_iterator.c:7-12: new position and the bucket. (`pos` is at least -1 here, so
    after the increment it is a natural number.) -/
def bucketNext (h : HL) (pos : Int) : C (Int × Option SB) := do
  let p := skipNull h (pos + 1).toNat
  if p < h.buckets.length then do pure (p, ← bucket h p) else pure (p, none)

/-- `h->buckets[pos]` dereferenced. -/
def derefBucket (h : HL) (pos : Int) : C SB := do
  if pos < 0 then .error .oobRead
  else
    match ← bucket h pos.toNat with
    | some l => pure l
    | none => .error .nullDeref

/-- src/hashlist/hashlist_iterator.c:22: whether the iterator must move to the next bucket (`pos` already
    incremented; it is not negative). -/
def needBucket (h : HL) (bpos pos : Int) : C Bool := do
  if bpos = -1 then pure true
  else do
    let l ← derefBucket h bpos
    pure (pos.toNat ≥ l.count)

/-- src/hashlist/hashlist_iterator.c:26: the item at the iterator's position. -/
def item (h : HL) (bpos pos : Int) : C (Option (List Byte)) := do
  let l ← derefBucket h bpos
  Sblist.content l (Sblist.get l pos.toNat)

/-- src/hashlist/hashlist_iterator.c:23-26: moving to the next bucket. -/
def advance (h : HL) (bpos : Int) : C (Iter × Option (List Byte)) := do
  let (b, l) ← bucketNext h bpos
  match l with
  | none => pure (⟨b, 0⟩, none)
  | some _ => do pure (⟨b, 0⟩, ← item h b 0)

/-- src/hashlist/hashlist_iterator.c:19-27: the item pointed to, `none` for NULL. -/
def next (h : HL) (it : Iter) : C (Iter × Option (List Byte)) := do
  if it.bpos ≥ h.buckets.length then pure (it, none)
  else do
    let pos := it.pos + 1
    if ← needBucket h it.bpos pos then advance h it.bpos
    else do pure (⟨it.bpos, pos⟩, ← item h it.bpos pos)

/-- The results of `n` successive calls of `hashlist_next`. -/
def nexts (h : HL) : (n : Nat) → Iter → C (List (Option (List Byte)))
  | 0, _ => pure []
  | n + 1, it => do
    let (it, r) ← next h it
    pure (r :: (← nexts h n it))

/-- A call of `hashlist_add`. -/
structure Add where
  hash : BitVec 32
  value : List Byte
  hdr : Bool
  a : Alloc

/-- A sequence of adds, with the results. -/
def run (h : HL) : List Add → C (HL × List Int)
  | [] => pure (h, [])
  | c :: cs => do
    let (h, r) ← add c.hdr c.a h c.hash c.value
    let (h, rs) ← run h cs
    pure (h, r :: rs)

end Ulz.Hashlist

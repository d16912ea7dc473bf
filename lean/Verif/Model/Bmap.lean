import Verif.Model.Tglist
/-! Model of bmap (include/bmap.h, with the default value list `tglist`) and hbmap (include/hbmap.h). -/
namespace Ulz.Bmap
open Ulz.Tglist (TG)

/-- What a map is instantiated with: sizes of KEYTYPE and VALTYPE, the comparison function, and the C
    library's `bsearch` (the index of the element it returns), which is only known by its contract. -/
structure Cfg where
  ksz : Nat
  vsz : Nat
  cmp : List Byte → List Byte → Int
  bs : List Byte → List (List Byte) → (List Byte → List Byte → Int) → Option Nat

/-- include/bmap.h:60-70 (`tmp.ss` is threaded through `insert` below, where it is observable). -/
structure BM where
  keys : TG
  values : TG
  deriving DecidableEq, Repr

/-- include/bmap.h:79-81. -/
def init : BM := ⟨Tglist.init, Tglist.init⟩

/-- The key array as `bsearch` sees it: `count` elements of `ksz` bytes. -/
def keysList (ksz : Nat) (l : TG) : C (List (List Byte)) := (List.range l.count).mapM (Tglist.get ksz l)

/-- include/bmap.h:112-113, 149-154; `none` is -1. (With no keys, `bsearch` gets a null pointer and 0
    elements; taken to return NULL.) -/
def find (c : Cfg) (b : BM) (key : List Byte) : C (Option Nat) := do
  let xs ← keysList c.ksz b.keys
  pure (c.bs key xs c.cmp)

/-- include/bmap.h:107. -/
def getkey (c : Cfg) (b : BM) (i : Nat) : C (List Byte) := Tglist.get c.ksz b.keys i
/-- include/bmap.h:108. -/
def getval (c : Cfg) (b : BM) (i : Nat) : C (List Byte) := Tglist.get c.vsz b.values i

/-- include/bmap.h:118-121: the item pointed to, `none` for NULL. -/
def get (c : Cfg) (b : BM) (key : List Byte) : C (Option (List Byte)) := do
  match ← find c b key with
  | none => pure none
  | some i => do pure (some (← getval c b i))

/-- include/bmap.h:126-133. Besides the result this returns the final `tmp.ss`; `a1`, `a2` are the
    allocations of the key and the value array. -/
def insert_nocheck (c : Cfg) (a1 a2 : Alloc) (b : BM) (key val : List Byte) : C (BM × Option Nat × Option Nat) := do
  let (ks, p) ← Tglist.insert_sorted c.ksz a1 b.keys key c.cmp
  match p with
  | none => pure ({ b with keys := ks }, none, none)
  | some p => do
    let (vs, ok) ← Tglist.insert c.vsz a2 b.values val p
    if ok ≠ 0 then pure (⟨ks, vs⟩, some p, some p)
    else do
      let ks ← Tglist.delete c.ksz ks p
      pure (⟨ks, vs⟩, none, some p)

/-- include/bmap.h:137-141. The comma binds weaker than `?:`, so the value of the whole expression is
    `tmp.ss` in both cases. -/
def insert (c : Cfg) (a1 a2 : Alloc) (b : BM) (key val : List Byte) : C (BM × Option Nat) := do
  match ← find c b key with
  | none => do
    let (b, _, ss) ← insert_nocheck c a1 a2 b key val
    pure (b, ss)
  | some i => do
    let (vs, _) ← Tglist.set c.vsz b.values val i
    pure ({ b with values := vs }, some i)

/-- include/bmap.h:143-147. -/
def delete (c : Cfg) (b : BM) (pos : Nat) : C BM := do
  let ks ← Tglist.delete c.ksz b.keys pos
  let vs ← Tglist.delete c.vsz b.values pos
  pure ⟨ks, vs⟩

/-! ### Client operations -/

inductive Op where
  | insert (k v : List Byte) (a1 a2 : Alloc)
  | get (k : List Byte)
  | contains (k : List Byte)
  | del (k : List Byte)   -- find, then delete the found entry, if any

/-- What a call returned. -/
inductive Res where
  | idx (i : Option Nat)
  | item (x : Option (List Byte))
  | bool (b : Bool)
  deriving DecidableEq

/-- One call: the map and what it returned. -/
def step (c : Cfg) (b : BM) : Op → C (BM × Res)
  | .insert k v a1 a2 => do
    let (b, r) ← insert c a1 a2 b k v
    pure (b, .idx r)
  | .get k => do pure (b, .item (← get c b k))
  | .contains k => do pure (b, .bool (← find c b k).isSome)
  | .del k => do
    match ← find c b k with
    | none => pure (b, .bool false)
    | some i => do pure (← delete c b i, .bool true)

/-- A history of calls. -/
def run (c : Cfg) (b : BM) : List Op → C (BM × List Res)
  | [] => pure (b, [])
  | op :: ops => do
    let (b, r) ← step c b op
    let (b, rs) ← run c b ops
    pure (b, r :: rs)

/-! ### hbmap -/

/-- include/hbmap.h:27-34: hash function (to `unsigned`) and the buckets. -/
structure HCfg extends Cfg where
  hash : List Byte → BitVec 32

/-- include/hbmap.h:52-58: `n` empty buckets. -/
def hinit (n : Nat) : List BM := List.replicate n init

/-- include/hbmap.h:25: `hbmap_iter`. -/
abbrev Iter := BitVec 64

/-- include/hbmap.h:87. -/
def iterBucket (it : Iter) : Nat := (it >>> 32).toNat
/-- include/hbmap.h:88. -/
def iterIndex (it : Iter) : Nat := (it &&& 0xffffffff#64).toNat
/-- include/hbmap.h:89. -/
def makeBucket (b : BitVec 64) : Iter := b <<< 32

/-- The comparison with `(hbmap_iter) -1` (include/hbmap.h:147, 151, 165). -/
def isNone (it : Iter) : Bool := it == -1#64

/-- Access to `buckets[i]`. -/
def bucket (h : List BM) (i : Nat) : C BM := match h[i]? with | some b => pure b | none => .error .oobRead

/-- An `ssize_t` index converted to `hbmap_iter`. -/
def idx64 : Option Nat → BitVec 64
  | none => -1#64
  | some i => BitVec.ofNat 64 i

/-- include/hbmap.h:139-140: `(uint64_t) hash % count`; a count of 0 is a division by zero. -/
def buckindex (c : HCfg) (h : List BM) (key : List Byte) : C (BitVec 64) :=
  if h.length = 0 then .error .divZero else pure (BitVec.ofNat 64 ((c.hash key).toNat % h.length))

/-- include/hbmap.h:142-145. -/
def hfind (c : HCfg) (h : List BM) (key : List Byte) : C Iter := do
  let it := makeBucket (← buckindex c h key)
  let b ← bucket h (iterBucket it)
  let r ← find c.toCfg b key
  pure (it ||| idx64 r)

/-- include/hbmap.h:127-128. -/
def hgetkey (c : HCfg) (h : List BM) (it : Iter) : C (List Byte) := do
  getkey c.toCfg (← bucket h (iterBucket it)) (iterIndex it)
/-- include/hbmap.h:130-131. -/
def hgetval (c : HCfg) (h : List BM) (it : Iter) : C (List Byte) := do
  getval c.toCfg (← bucket h (iterBucket it)) (iterIndex it)

/-- include/hbmap.h:150-152. -/
def hget (c : HCfg) (h : List BM) (key : List Byte) : C (Option (List Byte)) := do
  let it ← hfind c h key
  if isNone it then pure none else do pure (some (← hgetval c h it))

/-- include/hbmap.h:157-160. -/
def hinsert_nocheck (c : HCfg) (a1 a2 : Alloc) (h : List BM) (key val : List Byte) : C (List BM × Iter) := do
  let it := makeBucket (← buckindex c h key)
  let b ← bucket h (iterBucket it)
  let (b, r, _) ← insert_nocheck c.toCfg a1 a2 b key val
  pure (h.set (iterBucket it) b, it ||| idx64 r)

/-- include/hbmap.h:133-134. -/
def hsetvalue (c : HCfg) (h : List BM) (val : List Byte) (it : Iter) : C (List BM) := do
  let b ← bucket h (iterBucket it)
  let (vs, _) ← Tglist.set c.vsz b.values val (iterIndex it)
  pure (h.set (iterBucket it) { b with values := vs })

/-- include/hbmap.h:164-167. -/
def hinsert (c : HCfg) (a1 a2 : Alloc) (h : List BM) (key val : List Byte) : C (List BM × Iter) := do
  let it ← hfind c h key
  if isNone it then hinsert_nocheck c a1 a2 h key val
  else do pure (← hsetvalue c h val it, it)

/-- include/hbmap.h:169-170. -/
def hdelete (c : HCfg) (h : List BM) (it : Iter) : C (List BM) := do
  let b ← bucket h (iterBucket it)
  let b ← delete c.toCfg b (iterIndex it)
  pure (h.set (iterBucket it) b)

/-- include/hbmap.h:91-92. -/
def bucketValid (h : List BM) (it : Iter) : Bool := iterBucket it < h.length

/-- include/hbmap.h:93-98. -/
def indexValid (h : List BM) (it : Iter) : C Bool := do
  pure (iterIndex it < (← bucket h (iterBucket it)).keys.count)

/-- include/hbmap.h:100-102. -/
def iterValid (h : List BM) (it : Iter) : C Bool :=
  if bucketValid h it then indexValid h it else pure false

/-- include/hbmap.h:104-107. -/
def nextStep (h : List BM) (it : Iter) : C Iter := do
  if ← indexValid h (it + 1) then pure (it + 1)
  else pure (makeBucket (BitVec.ofNat 64 (iterBucket it) + 1))

/-- include/hbmap.h:109-113; running out of `fuel` is `hang`. -/
def nextValid (h : List BM) : (fuel : Nat) → Iter → C Iter
  | 0, _ => .error .hang
  | fuel + 1, it => do
    let it ← nextStep h it
    if bucketValid h it then
      if ← indexValid h it then pure it else nextValid h fuel it
    else pure it

/-- include/hbmap.h:121-125: the loop of `hbmap_foreach` from `it` on; result: the iterators for which
    the loop body runs (a body that does not modify the map). -/
def foreachFrom (h : List BM) : (fuel : Nat) → Iter → C (List Iter)
  | 0, _ => .error .hang
  | fuel + 1, it => do
    if ← iterValid h it then do
      let nxt ← nextValid h (h.length + 1) it
      pure (it :: (← foreachFrom h fuel nxt))
    else pure []

/-- include/hbmap.h:121-125. -/
def foreach (h : List BM) (fuel : Nat) : C (List Iter) := do
  let it ← (do if ← iterValid h 0 then pure 0#64 else nextValid h (h.length + 1) 0)
  foreachFrom h fuel it

/-- What a call on an hbmap returned. -/
inductive HRes where
  | iter (failed : Bool)
  | item (x : Option (List Byte))
  | bool (b : Bool)
  deriving DecidableEq

/-- One call on an hbmap: the map and what it returned. -/
def hstep (c : HCfg) (h : List BM) : Op → C (List BM × HRes)
  | .insert k v a1 a2 => do
    let (h, it) ← hinsert c a1 a2 h k v
    pure (h, .iter (isNone it))
  | .get k => do pure (h, .item (← hget c h k))
  | .contains k => do
    let it ← hfind c h k
    pure (h, .bool (!isNone it))
  | .del k => do
    let it ← hfind c h k
    if isNone it then pure (h, .bool false) else do pure (← hdelete c h it, .bool true)

/-- A history of calls on an hbmap. -/
def hrun (c : HCfg) (h : List BM) : List Op → C (List BM × List HRes)
  | [] => pure (h, [])
  | op :: ops => do
    let (h, r) ← hstep c h op
    let (h, rs) ← hrun c h ops
    pure (h, r :: rs)

end Ulz.Bmap

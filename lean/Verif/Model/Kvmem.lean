import Verif.Model.Sblist
import Verif.Model.Tglist
/-! Model of the lists of strings and of keys with values (include/stringptrlist.h, include/kvlist.h) on the bytes of their sblist, with the strings in a memory
that the program goes on using. -/
namespace Ulz.Kvmem
open Ulz.Sblist (SB)
open Ulz.Tglist (leVal leBytes)

/-- The program's memory: what can be read at an address. -/
abbrev Mem := Nat → Option Byte

/-- include/stringptr_struct.h:6-9 and include/kvlist.h:9-13: `stringptr` (without `value`, which is then 0) and `stringptrv`. -/
structure Entry where
  ptr : Nat
  size : Nat
  value : Nat
  deriving DecidableEq, Repr

/-- include/stringptrlist.h:13, include/kvlist.h:25: the size of an entry; `kv` tells the kind of list. -/
def entrySize (kv : Bool) : Nat := if kv then 24 else 16

/-- include/stringptr_struct.h:15 and include/kvlist.h:15: the bytes of an entry (LP64, little endian). -/
def enc (kv : Bool) (e : Entry) : List Byte := leBytes 8 e.ptr ++ leBytes 8 e.size ++ if kv then leBytes 8 e.value else []

/-- include/stringptrlist.h:13, include/kvlist.h:25 (the malloc of the header succeeds). -/
def new (kv : Bool) (n : Nat) : C SB := Sblist.init (entrySize kv) n

/-- include/stringptrlist.h:23, include/kvlist.h:23. -/
def add (kv : Bool) (a : Alloc) (l : SB) (e : Entry) : C (SB × Nat) := Sblist.add a l (enc kv e)

/-- include/stringptrlist.h:26-27, include/kvlist.h:21. -/
def set (kv : Bool) (l : SB) (e : Entry) (pos : Nat) : C (SB × Nat) := Sblist.set l (enc kv e) pos

/-- include/stringptrlist.h:35-36. -/
def insert (kv : Bool) (a : Alloc) (l : SB) (pos : Nat) (e : Entry) : C (SB × Nat) := Sblist.insert a l (enc kv e) pos

/-- The entry that bytes stand for, as a comparison function sees it (include/stringptr_struct.h:6-9, include/kvlist.h:9-13). -/
def dec (kv : Bool) (x : List Byte) : Entry := ⟨leVal (x.take 8), leVal ((x.drop 8).take 8), if kv then leVal ((x.drop 16).take 8) else 0⟩

/-- include/stringptrlist.h:39-40 (for a `kvlist` the call of `sblist_insert_sorted` it stands for). The comparison looks at the entries and at the memory behind
    them; the result is an index, `none` for -1. -/
def insert_sorted (kv : Bool) (a : Alloc) (l : SB) (m : Mem) (e : Entry) (cmp : Mem → Entry → Entry → Int) : C (SB × Option Nat) :=
  Sblist.insert_sorted a l (enc kv e) fun x y => cmp m (dec kv x) (dec kv y)

/-- A field of eight bytes. -/
def word (l : SB) (o : Nat) : C Nat := do pure (leVal (← rdN l.items o 8))

/-- include/stringptrlist.h:29-30, include/kvlist.h:19: the entry behind the pointer, `none` for NULL. -/
def get (kv : Bool) (l : SB) (i : Nat) : C (Option Entry) :=
  match Sblist.get l i with
  | none => pure none
  | some o => do
    let p ← word l o
    let n ← word l (o + 8)
    let v ← if kv then word l (o + 16) else pure 0
    pure (some ⟨p, n, v⟩)

/-- `n` bytes of memory. -/
def rdMem (m : Mem) : (p n : Nat) → C (List Byte)
  | _, 0 => pure []
  | p, n + 1 =>
    match m p with
    | none => .error .oobRead
    | some b => do pure (b :: (← rdMem m (p + 1) n))

/-- src/stringptr/stringptr_eq.c:6 for the string at `p` with `n` bytes and an entry with the fields `q` and `k`. -/
def eq (m : Mem) (p n q k : Nat) : C Bool := if n = k then do pure ((← rdMem m p n) == (← rdMem m q n)) else pure false

/-- src/stringptrlist/stringptrlist_find.c:9-13, src/kvlist/kvlist.c:11-18: index and offset of the entry that is found. -/
def findLoop (m : Mem) (l : SB) (p n : Nat) : (fuel i : Nat) → C (Option (Nat × Nat))
  | 0, _ => .error .hang
  | fuel + 1, i =>
    if i < l.count then
      match Sblist.get l i with
      | none => pure none
      | some o => do
        let q ← word l o
        let k ← word l (o + 8)
        if ← eq m p n q k then pure (some (i, o)) else findLoop m l p n fuel (i + 1)
    else pure none

/-- src/stringptrlist/stringptrlist_find.c:5-16, `none` is -1. -/
def stringptrlist_find (m : Mem) (l : SB) (p n : Nat) : C (Option Nat) := do
  match ← findLoop m l p n (l.count + 1) 0 with
  | none => pure none
  | some (i, _) => pure (some i)

/-- src/kvlist/kvlist.c:7-20: the result, and `*value` afterwards. -/
def kv_find (m : Mem) (l : SB) (p n : Nat) (value : Nat) : C (Nat × Nat) := do
  match ← findLoop m l p n (l.count + 1) 0 with
  | none => pure (0, value)
  | some (_, o) => do pure (1, ← word l (o + 16))

/-- What a program may do with a list (include/stringptrlist.h:13-40, include/kvlist.h:19-28, include/sblist.h) and its memory. -/
inductive Op where
  | add (e : Entry) (a : Alloc)
  | set (pos : Nat) (e : Entry)
  | insert (pos : Nat) (e : Entry) (a : Alloc)
  | sorted (e : Entry) (cmp : Mem → Entry → Entry → Int) (a : Alloc)
  | delete (i : Nat)
  | get (i : Nat)
  | size
  | find (p n : Nat)
  | kvfind (p n value : Nat)
  | poke (p : Nat) (b : Option Byte)

/-- What it gets. -/
inductive Res where
  | int (n : Nat)
  | entry (e : Option Entry)
  | index (i : Option Nat)
  | found (r value : Nat)
  | unit
  deriving DecidableEq, Repr

/-- One action (include/stringptrlist.h:13-40, include/kvlist.h:19-28). -/
def step (kv : Bool) (l : SB) (m : Mem) : Op → C (SB × Mem × Res)
  | .add e a => do let (l, r) ← add kv a l e; pure (l, m, .int r)
  | .set pos e => do let (l, r) ← set kv l e pos; pure (l, m, .int r)
  | .insert pos e a => do let (l, r) ← insert kv a l pos e; pure (l, m, .int r)
  | .sorted e cmp a => do let (l, r) ← insert_sorted kv a l m e cmp; pure (l, m, .index r)
  | .delete i => do pure (← Sblist.delete l i, m, .unit)
  | .get i => do pure (l, m, .entry (← get kv l i))
  | .size => pure (l, m, .int l.count)
  | .find p n => do pure (l, m, .index (← stringptrlist_find m l p n))
  | .kvfind p n v => do let (r, v) ← kv_find m l p n v; pure (l, m, .found r v)
  | .poke p b => pure (l, fun q => if q = p then b else m q, .unit)

/-- A history (include/stringptrlist.h:13-40, include/kvlist.h:19-28). -/
def run (kv : Bool) (l : SB) (m : Mem) : List Op → C (SB × Mem × List Res)
  | [] => pure (l, m, [])
  | op :: ops => do
    let (l, m, r) ← step kv l m op
    let (l, m, rs) ← run kv l m ops
    pure (l, m, r :: rs)

end Ulz.Kvmem

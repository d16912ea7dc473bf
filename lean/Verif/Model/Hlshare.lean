import Verif.Model.Sbshare
/-! Model of threads that use one hashlist at the same time without a lock. Every load and every store of an entry of `h->buckets`, every call of `malloc`
and, inside of a bucket, every step of Verif.Model.Sbshare is one step; steps of different threads follow each other in any order and are atomic (by ISO C
the accesses are a data race and undefined, so this is the best case). `bucketcount`, `datasize` and `buckets` never change. The accesses are the ones that
the source shows. The allocator can be used by several threads. -/
namespace Ulz.Hlshare
open Ulz.Sbshare (Mem Grow upd)

/-- The hashlist (include/hashlist.h:11-15): `slots d` is `h->buckets[d]`, the number of an sblist object or NULL. `lists` are the sblist objects that are
    allocated, each with the blocks it ever had; numbers from `next` on were never used. -/
structure Tab where
  bc : Nat
  ds : Nat
  slots : Nat → Option Nat
  lists : Nat → Option Mem
  next : Nat

/-- The calls: `hashlist_add(h, hash, x)` (src/hashlist/hashlist.c:18-25), where `hdr` says whether the `malloc` of an sblist object succeeds and `g` what
    `realloc` does; and `hashlist_get(h, hash)` (src/hashlist/hashlist.c:28-30) followed, if it is not NULL, by `sblist_get` and a copy of the item if that is
    not NULL. -/
inductive Op where
  | add (hash : BitVec 32) (x : List Byte) (hdr : Bool) (g : Grow)
  | look (hash : BitVec 32) (i : Nat)

/-- What a call gives: the `int` that it returns, or the item that was copied (`none`: NULL). -/
inductive Res where
  | int (n : Int)
  | item (x : Option (List Byte))
  deriving DecidableEq, Repr

/-- Where a thread is in its first unfinished call: what it does next. -/
inductive Pc where
  | idle                          -- load the entry for the comparison (src/hashlist/hashlist.c:20), or for `return` (29)
  | mk (d : Nat)                  -- call `sblist_new` (21)
  | st (d : Nat) (l : Option Nat) -- store the entry (21)
  | tst (d : Nat)                 -- load the entry for the test (22)
  | ld (d : Nat)                  -- load the entry for `sblist_add` (24)
  | on (l : Nat) (pc : Sbshare.Pc) -- in a function of sblist, on the list `l`
  deriving DecidableEq, Repr

/-- The hash that a call hands in (src/hashlist/hashlist.c:18, 28). -/
def hashOf : Op → BitVec 32
  | .add h _ _ _ => h
  | .look h _ => h

/-- src/hashlist/hashlist.c:19, 29: `hash % h->bucketcount`. -/
def slotOf (m : Tab) (o : Op) : C Nat :=
  if m.bc = 0 then .error .divZero else pure ((hashOf o).toNat % m.bc)

/-- The call of sblist that is made on the bucket (src/hashlist/hashlist.c:24). -/
def inner : Op → Sbshare.Op
  | .add _ x _ g => .add x g
  | .look _ i => .look i

/-- What is made of its result: `!sblist_add(...)` (src/hashlist/hashlist.c:24). -/
def give : Sbshare.Res → Res
  | .int n => .int (if n = 0 then 1 else 0)
  | .item x => .item x

/-- Whether `malloc` succeeds (src/sblist/sblist.c:10). -/
def hdrOf : Op → Bool
  | .add _ _ hdr _ => hdr
  | .look _ _ => false

/-- src/sblist/sblist.c:9-27: the object that `sblist_new(h->datasize, 8)` makes. -/
def fresh (ds : Nat) : Mem := ⟨ds, 8, 0, 0, 0, fun p => if p = 0 then some [] else none, 1⟩

/-- One step of a call: the next place, or what the call gives. src/hashlist/hashlist.c:18-30. -/
def micro (o : Op) (m : Tab) : Pc → C (Tab × (Pc ⊕ Res))
  | .idle => do
    let d ← slotOf m o
    match o with
    | .add _ _ _ _ =>
      match m.slots d with
      | none => pure (m, .inl (.mk d))
      | some _ => pure (m, .inl (.ld d))
    | .look _ _ =>
      match m.slots d with
      | none => pure (m, .inr (.item none))
      | some l => pure (m, .inl (.on l .idle))
  | .mk d =>
    if hdrOf o then pure ({ m with lists := upd m.lists m.next (some (fresh m.ds)), next := m.next + 1 }, .inl (.st d (some m.next)))
    else pure (m, .inl (.st d none))
  | .st d l => pure ({ m with slots := upd m.slots d l }, .inl (.tst d))
  | .tst d =>
    match m.slots d with
    | none => pure (m, .inr (.int (-1)))
    | some _ => pure (m, .inl (.ld d))
  | .ld d =>
    match m.slots d with
    | none => .error .nullDeref
    | some l => pure (m, .inl (.on l .idle))
  | .on l pc =>
    match m.lists l with
    | none => .error .badFree
    | some q => do
      match ← Sbshare.micro (inner o) q pc with
      | (q, .inl pc) => pure ({ m with lists := upd m.lists l (some q) }, .inl (.on l pc))
      | (q, .inr r) => pure ({ m with lists := upd m.lists l (some q) }, .inr (give r))

/-- A thread: its unfinished calls, where it is, and what the finished ones gave (src/hashlist/hashlist.c:18-30). -/
structure Thread where
  calls : List Op
  pc : Pc
  out : List Res

/-- The hashlist with its memory and the threads (src/hashlist/hashlist.c:18-30). -/
structure St where
  tab : Tab
  th : Nat → Thread

/-- The next step of thread `t` (src/hashlist/hashlist.c:18-30). -/
def step (s : St) (t : Nat) : C St :=
  let T := s.th t
  match T.calls with
  | [] => pure s
  | o :: os => do
    match ← micro o s.tab T.pc with
    | (m, .inl pc) => pure ⟨m, upd s.th t { T with pc := pc }⟩
    | (m, .inr r) => pure ⟨m, upd s.th t ⟨os, .idle, T.out ++ [r]⟩⟩

/-- Steps of the threads in the order `sched` (src/hashlist/hashlist.c:18-30). -/
def run (s : St) : List Nat → C St
  | [] => pure s
  | t :: ts => do run (← step s t) ts

/-- The threads with the calls they are to make (src/hashlist/hashlist.c:18-30). -/
def start (m : Tab) (prog : Nat → List Op) : St := ⟨m, fun t => ⟨prog t, .idle, []⟩⟩

/-- src/hashlist/hashlist.c:4-15 when both allocations succeed. -/
def new (bc ds : Nat) : Tab := ⟨bc, ds, fun _ => none, fun _ => none, 0⟩

end Ulz.Hlshare

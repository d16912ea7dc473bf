import Verif.Model.Stringptr
import Verif.Model.Filelist
/-! The memory that sblist, hashlist, stringptr_replace and filelist_search allocate and free, block by block. Blocks are numbered:
    the block given out by call number `n` of the allocator has the address `n + 1`; addresses are not used again. Item and block
    sizes of lists are positive. -/
namespace Ulz.Life
open Ulz.Stringptr (SP Piece)
open Ulz.Filelist (has INCLUDE_DOT INCLUDE_DOT_DOT INCLUDE_HIDDEN)

/-- The allocated blocks, and how often the allocator was called. -/
structure Mem where
  live : List Nat
  next : Nat
  deriving DecidableEq, Repr

/-- `malloc`, `calloc`: `ok n` tells whether call number `n` succeeds. The address, 0 for NULL. -/
def alloc (ok : Nat → Bool) (m : Mem) : Mem × Nat :=
  if ok m.next then (⟨(m.next + 1) :: m.live, m.next + 1⟩, m.next + 1) else (⟨m.live, m.next + 1⟩, 0)

/-- `free`. -/
def free (m : Mem) (p : Nat) : C Mem :=
  if p = 0 then pure m else if p ∈ m.live then pure { m with live := m.live.erase p } else .error .badFree

/-- `realloc`: the block gets a new address. -/
def realloc (ok : Nat → Bool) (m : Mem) (p : Nat) : C (Mem × Nat) :=
  if p ≠ 0 ∧ p ∉ m.live then .error .badFree
  else if ok m.next then pure (⟨(m.next + 1) :: m.live.erase p, m.next + 1⟩, m.next + 1)
  else pure (⟨m.live, m.next + 1⟩, 0)

/-! ### sblist -/

/-- include/sblist.h:24-30: the addresses of the object and of its items, and what decides about growth. -/
structure L where
  hd : Nat
  items : Nat
  count : Nat
  capa : Nat
  block : Nat
  deriving DecidableEq, Repr

/-- src/sblist/sblist.c:9-27; `none` is NULL. -/
def lnew (ok : Nat → Bool) (m : Mem) (block : Nat) : Mem × Option L :=
  let (m, p) := alloc ok m
  if p = 0 then (m, none) else (m, some ⟨p, 0, 0, 0, block⟩)

/-- src/sblist/sblist.c:58-73, src/sblist/sblist_addi.c:3-8, src/sblist/sblist_insert.c:4-9: adding an item; whether that succeeds. -/
def ladd (ok : Nat → Bool) (m : Mem) (l : L) : C (Mem × L × Bool) :=
  if l.count = l.capa then do
    let (m, q) ← realloc ok m l.items
    if q = 0 then pure (m, l, false)
    else pure (m, { l with items := q, capa := l.capa + l.block, count := l.count + 1 }, true)
  else pure (m, { l with count := l.count + 1 }, true)

/-- src/sblist/sblist_delete.c:4-9, src/sblist/sblist_pop.c:2-10: removing an item. -/
def ldel (l : L) : L := { l with count := l.count - 1 }

/-- src/sblist/sblist.c:29-34. Reading the object after it was freed is an error. -/
def lfreeItems (m : Mem) (l : L) : C (Mem × L) :=
  if l.hd ∉ m.live then .error .badFree
  else do
    let m ← free m l.items
    pure (m, { l with items := 0, capa := 0, count := 0 })

/-- src/sblist/sblist.c:36-41; `none` is NULL. -/
def lfree (m : Mem) (l : Option L) : C Mem :=
  match l with
  | none => pure m
  | some l => do
    let (m, l) ← lfreeItems m l
    free m l.hd

/-- What a program can do with a list. -/
inductive Op where
  | add
  | del
  | freeItems

/-- One call on a list, with its effect on the heap. -/
def step (ok : Nat → Bool) (m : Mem) (l : L) : Op → C (Mem × L)
  | .add => do
    let (m, l, _) ← ladd ok m l
    pure (m, l)
  | .del => pure (m, ldel l)
  | .freeItems => lfreeItems m l

/-- A history of calls on a list. -/
def run (ok : Nat → Bool) : Mem → L → List Op → C (Mem × L)
  | m, l, [] => pure (m, l)
  | m, l, op :: ops => do
    let (m, l) ← step ok m l op
    run ok m l ops

/-- `sblist_new`, the calls, `sblist_free`. -/
def lifetime (ok : Nat → Bool) (m : Mem) (block : Nat) (ops : List Op) : C Mem := do
  match lnew ok m block with
  | (m, none) => pure m
  | (m, some l) => do
    let (m, l) ← run ok m l ops
    lfree m (some l)

/-! ### hashlist -/

/-- include/hashlist.h:11-15: the addresses of the object and of the table, and the buckets. -/
structure H where
  hd : Nat
  table : Nat
  buckets : List (Option L)
  deriving DecidableEq, Repr

/-- src/hashlist/hashlist.c:4-15. -/
def hnew (ok : Nat → Bool) (m : Mem) (bucketcount : Nat) : C (Mem × Option H) := do
  let (m, p) := alloc ok m
  if p = 0 then pure (m, none)
  else do
    let (m, q) := alloc ok m
    if q = 0 then do pure (← free m p, none)
    else pure (m, some ⟨p, q, List.replicate bucketcount none⟩)

/-- src/hashlist/hashlist.c:20-23: the bucket, created if missing. -/
def ensure (ok : Nat → Bool) (m : Mem) : Option L → Mem × Option L
  | some l => (m, some l)
  | none => lnew ok m 8

/-- src/hashlist/hashlist.c:18-25. -/
def hadd (ok : Nat → Bool) (m : Mem) (h : H) (hash : BitVec 32) : C (Mem × H × Int) :=
  if h.buckets.length = 0 then .error .divZero
  else
    match h.buckets[hash.toNat % h.buckets.length]? with
    | none => .error .oobRead
    | some b =>
      match ensure ok m b with
      | (m, none) => pure (m, h, -1)
      | (m, some l) => do
        let (m, l, r) ← ladd ok m l
        pure (m, { h with buckets := h.buckets.set (hash.toNat % h.buckets.length) (some l) }, if r then 0 else 1)

/-- src/hashlist/hashlist.c:35-37. -/
def freeBuckets (m : Mem) : List (Option L) → C Mem
  | [] => pure m
  | b :: bs => do
    let m ← lfree m b
    freeBuckets m bs

/-- src/hashlist/hashlist.c:32-41. -/
def hfree (m : Mem) (h : Option H) : C Mem :=
  match h with
  | none => pure m
  | some h => do
    let m ← freeBuckets m h.buckets
    let m ← free m h.table
    free m h.hd

/-- A history of calls on a hashlist. -/
def hrun (ok : Nat → Bool) : Mem → H → List (BitVec 32) → C (Mem × H)
  | m, h, [] => pure (m, h)
  | m, h, x :: xs => do
    let (m, h, _) ← hadd ok m h x
    hrun ok m h xs

/-- `hashlist_new`, calls of `hashlist_add`, `hashlist_free`. -/
def hlifetime (ok : Nat → Bool) (m : Mem) (bucketcount : Nat) (xs : List (BitVec 32)) : C Mem := do
  let (m, h) ← hnew ok m bucketcount
  match h with
  | none => pure m
  | some h => do
    let (m, h) ← hrun ok m h xs
    hfree m (some h)

/-! ### stringptr_replace -/

/-- src/stringptrlist/stringptr_splits.c:14-22, as Stringptr.splitsLoop, the list growing block by block. -/
def splitsLoop (ok : Nat → Bool) (size : Nat) (d : SP) :
    (fuel i linestart : Nat) → (buf : List Byte) → Mem → L → (acc : List Piece) → C (List Byte × Mem × L × List Piece)
  | 0, _, _, _, _, _, _ => .error .hang
  | fuel + 1, i, linestart, buf, m, l, acc => do
    if i ≤ size then do
      if ← Stringptr.splitsHit buf size d i then do
        let (m, l, r) ← ladd ok m l
        let buf ← wr buf i 0
        splitsLoop ok size d fuel (i + d.size) (i + d.size) buf m l (if r then acc ++ [(linestart, i - linestart)] else acc)
      else splitsLoop ok size d fuel (i + 1) linestart buf m l acc
    else pure (buf, m, l, acc)

/-- src/stringptrlist/stringptr_replace.c:3-27 (non-NULL arguments): the argument's buffer afterwards, the memory, and the address
    and content of the result. `f` is the content of fresh memory. -/
def replace (ok : Nat → Bool) (f : Nat → Byte) (s what whit : SP) (fuel : Nat) (m : Mem) :
    C (List Byte × Mem × Option (Nat × SP)) := do
  match lnew ok m 16 with
  | (m, none) => pure (s.buf, m, none)
  | (m, some l) => do
    let (buf, m, l, ps) ← splitsLoop ok s.size what fuel 0 0 s.buf m l []
    let k := sztSub ps.length 1
    let size := szt (sztSub s.size (szt (k * what.size)) + szt (k * whit.size))
    let (m, p) := alloc ok m
    match ← Stringptr.new (if p = 0 then none else some f) size with
    | none => pure (buf, m, none)
    | some r => do
      let res ← Stringptr.replaceLoop buf whit ps r.buf 0
      pure (buf, ← free m l.hd, some (p, ⟨res, r.size⟩))

/-! ### filelist_search -/

/-- `globfree`: it resets the structure, so that a second call does nothing. -/
def globfree (m : Mem) (g : Nat) : Mem := { m with live := m.live.erase g }

/-- src/filelist/filelist.c:61-66: adding string literals, unchecked. -/
def literals (ok : Nat → Bool) (flags : BitVec 32) (m : Mem) (l : L) : C (Mem × L × List SP) :=
  if !(has flags INCLUDE_HIDDEN) then do
    let (m, l, a) ← (if has flags INCLUDE_DOT then do
      let (m, l, r) ← ladd ok m l
      pure (m, l, if r then [⟨bytes! "./" ++ [0], 2⟩] else []) else pure (m, l, []) : C (Mem × L × List SP))
    if has flags INCLUDE_DOT_DOT then do
      let (m, l, r) ← ladd ok m l
      pure (m, l, if r then a ++ [⟨bytes! "../" ++ [0], 3⟩] else a)
    else pure (m, l, a)
  else pure (m, l, [])

/-- How the search ends. -/
inductive End where
  | done
  | nameless
  | refused
  deriving DecidableEq, Repr

/-- src/filelist/filelist.c:67-110: the loop. -/
def pathLoop (ok : Nat → Bool) (flags : BitVec 32) : List (List Byte) → Mem → L → List SP → C (End × Mem × L × List SP)
  | [], m, l, files => pure (.done, m, l, files)
  | p :: paths, m, l, files => do
    match ← Filelist.body flags p with
    | .skip => pathLoop ok flags paths m l files
    | .err => pure (.nameless, m, l, files)
    | .add s => do
      let (m, l, r) ← ladd ok m l
      if r then pathLoop ok flags paths m l (files ++ [s]) else pure (.refused, m, l, files)

/-- src/filelist/filelist.c:56-112: the search after `glob` has found `paths`, in memory at `g`. The result, the memory, what
    `l->files` points to (`none` for NULL; the object may have been freed), and the entries. -/
def search (ok : Nat → Bool) (flags : BitVec 32) (paths : List (List Byte)) (m : Mem) (g : Nat) :
    C (Int × Mem × Option L × List SP) := do
  match lnew ok m paths.length with
  | (m, none) => pure (-1, globfree m g, none, [])
  | (m, some l) => do
    let (m, l, files) ← literals ok flags m l
    let (e, m, l, files) ← pathLoop ok flags paths m l files
    match e with
    | .done => pure (0, m, some l, files)
    | .nameless => pure (-1, globfree m g, some l, [])
    | .refused => do
      let m ← free m l.hd
      pure (-1, globfree m g, some l, [])

/-- src/filelist/filelist.c:114-119. -/
def filelist_free (m : Mem) (g : Nat) (files : Option L) : C Mem := do
  let m ← lfree m files
  pure (globfree m g)

end Ulz.Life

import Verif.Model.Life
/-! The memory of tglist, tgilist, bmap and hbmap block by block, in programs whose lists and maps hold pointers to blocks they own.
    The heap is that of Life. Where an item goes and whether a key is found is left open: every operation carries the position, so
    that every comparison function, hash function and content of the keys is covered. Sizes of arrays do not overflow. -/
namespace Ulz.Own
open Ulz.Life (Mem alloc free)

/-- include/tglist.h:50-59: the address of the array (0 for NULL), its capacity, and the items: pointers or, in the index of a tgilist,
    numbers. -/
structure T where
  arr : Nat
  capa : Nat
  vals : List Nat
  deriving DecidableEq, Repr

/-- include/tglist.h:72, 79: an empty list. -/
def tinit : T := ⟨0, 0, []⟩

/-- include/tglist.h:159-170. -/
def tgrow (ok : Nat → Bool) (m : Mem) (t : T) : C (Mem × T × Bool) :=
  if t.vals.length = t.capa then do
    let (m, q) ← Life.realloc ok m t.arr
    if q = 0 then pure (m, t, false)
    else pure (m, { t with arr := q, capa := if t.capa = 0 then 4 else t.capa * 2 }, true)
  else pure (m, t, true)

/-- include/tglist.h:106-114. -/
def tadd (ok : Nat → Bool) (m : Mem) (t : T) (x : Nat) : C (Mem × T × Bool) := do
  let (m, t, r) ← tgrow ok m t
  if r then pure (m, { t with vals := t.vals ++ [x] }, true) else pure (m, t, false)

/-- include/tglist.h:125-139, 151-153, 201-206: `tglist_insert`, and `tglist_insert_sorted` with its position. Positions behind the list are not
    allowed (`tglist` does not check them). -/
def tinsert (ok : Nat → Bool) (m : Mem) (t : T) (x p : Nat) : C (Mem × T × Bool) :=
  if t.vals.length < p then .error .oobWrite
  else do
    let (m, t, r) ← tgrow ok m t
    if r then pure (m, { t with vals := t.vals.take p ++ x :: t.vals.drop p }, true) else pure (m, t, false)

/-- include/tglist.h:120-122; only positions in the list are allowed. -/
def tdel (t : T) (i : Nat) : C T :=
  if i < t.vals.length then pure { t with vals := t.vals.eraseIdx i } else .error .oobRead

/-- include/tglist.h:96: only positions in the list are allowed. -/
def tget (t : T) (i : Nat) : C Nat := match t.vals[i]? with | some x => pure x | none => .error .oobRead

/-- include/tglist.h:98-99: only positions in the list are allowed. -/
def tset (t : T) (x i : Nat) : C T :=
  if i < t.vals.length then pure { t with vals := t.vals.set i x } else .error .oobWrite

/-- The loop of include/tglist.h:90-93 (items of the size of a pointer): the remaining items, the last one first. -/
def freeAll (m : Mem) : List Nat → C Mem
  | [] => pure m
  | x :: xs => do
    let m ← free m x
    freeAll m xs

/-- include/tglist.h:90-93. -/
def tfreeValues (m : Mem) (t : T) : C (Mem × T) := do
  let m ← freeAll m t.vals.reverse
  pure (m, { t with vals := [] })

/-- include/tglist.h:82. -/
def tfreeItems (m : Mem) (t : T) : C Mem := free m t.arr

/-! ### A program with a tglist of blocks it owns -/

/-- What the program does. A block is allocated and added at the end or at a position (and freed again if the list does not take it);
    or an item is deleted and freed. Positions that do not exist are not used. -/
inductive Op where
  | add
  | insert (p : Nat)
  | del (i : Nat)

/-- One operation. -/
def step (ok : Nat → Bool) (m : Mem) (t : T) : Op → C (Mem × T)
  | .add => do
    let (m, x) := alloc ok m
    if x = 0 then pure (m, t)
    else do
      let (m, t, r) ← tadd ok m t x
      if r then pure (m, t) else do pure (← free m x, t)
  | .insert p =>
    if t.vals.length < p then pure (m, t)
    else do
      let (m, x) := alloc ok m
      if x = 0 then pure (m, t)
      else do
        let (m, t, r) ← tinsert ok m t x p
        if r then pure (m, t) else do pure (← free m x, t)
  | .del i =>
    if i < t.vals.length then do
      let m ← free m (← tget t i)
      pure (m, ← tdel t i)
    else pure (m, t)

/-- A history of operations. -/
def run (ok : Nat → Bool) : Mem → T → List Op → C (Mem × T)
  | m, t, [] => pure (m, t)
  | m, t, op :: ops => do
    let (m, t) ← step ok m t op
    run ok m t ops

/-- `tglist_new` (include/tglist.h:72), the operations, `tglist_free_values` if `values` is set, `tglist_free`
    (include/tglist.h:75). -/
def lifetime (ok : Nat → Bool) (m : Mem) (ops : List Op) (values : Bool) : C Mem := do
  let (m, hd) := alloc ok m
  if hd = 0 then pure m
  else do
    let (m, t) ← run ok m tinit ops
    let (m, t) ← (if values then tfreeValues m t else pure (m, t))
    let m ← tfreeItems m t
    free m hd

/-! ### The same with a tgilist -/

/-- include/tgilist.h:30-34. -/
structure TI where
  index : T
  items : T
  deriving DecidableEq, Repr

/-- include/tgilist.h:61-67. -/
def iadd (ok : Nat → Bool) (m : Mem) (t : TI) (x : Nat) : C (Mem × TI × Bool) := do
  let (m, ix, r) ← tadd ok m t.index t.items.vals.length
  if r then do
    let (m, it, r) ← tadd ok m t.items x
    if r then pure (m, ⟨ix, it⟩, true)
    else do pure (m, ⟨← tdel ix (ix.vals.length - 1), it⟩, false)
  else pure (m, { t with index := ix }, false)

/-- include/tgilist.h:73-79. -/
def iinsert (ok : Nat → Bool) (m : Mem) (t : TI) (x p : Nat) : C (Mem × TI × Bool) := do
  let (m, it, r) ← tadd ok m t.items x
  if r then do
    let (m, ix, r) ← tinsert ok m t.index (it.vals.length - 1) p
    if r then pure (m, ⟨ix, it⟩, true)
    else pure (m, ⟨ix, { it with vals := it.vals.dropLast }⟩, false)
  else pure (m, { t with items := it }, false)

/-- include/tgilist.h:70-71. -/
def idel (t : TI) (i : Nat) : C TI := do pure { t with index := ← tdel t.index i }

/-- include/tgilist.h:50-53. -/
def ifreeItems (m : Mem) (t : TI) : C Mem := do
  let m ← tfreeItems m t.index
  tfreeItems m t.items

/-- As `step`, but a deleted item is not freed: it stays in the array of values, and `tgilist_free_values` will free it. -/
def istep (ok : Nat → Bool) (m : Mem) (t : TI) : Op → C (Mem × TI)
  | .add => do
    let (m, x) := alloc ok m
    if x = 0 then pure (m, t)
    else do
      let (m, t, r) ← iadd ok m t x
      if r then pure (m, t) else do pure (← free m x, t)
  | .insert p =>
    if t.index.vals.length < p then pure (m, t)
    else do
      let (m, x) := alloc ok m
      if x = 0 then pure (m, t)
      else do
        let (m, t, r) ← iinsert ok m t x p
        if r then pure (m, t) else do pure (← free m x, t)
  | .del i =>
    if i < t.index.vals.length then do
      pure (m, ← idel t i)
    else pure (m, t)

/-- A history of operations. -/
def irun (ok : Nat → Bool) : Mem → TI → List Op → C (Mem × TI)
  | m, t, [] => pure (m, t)
  | m, t, op :: ops => do
    let (m, t) ← istep ok m t op
    irun ok m t ops

/-- `tgilist_new` (include/tgilist.h:43), the operations, `tgilist_free_values` (include/tgilist.h:55) if `values` is set,
    `tgilist_free` (include/tgilist.h:44-47). -/
def ilifetime (ok : Nat → Bool) (m : Mem) (ops : List Op) (values : Bool) : C Mem := do
  let (m, hd) := alloc ok m
  if hd = 0 then pure m
  else do
    let (m, t) ← irun ok m ⟨tinit, tinit⟩ ops
    let (m, it) ← (if values then tfreeValues m t.items else pure (m, t.items))
    let m ← ifreeItems m ⟨t.index, it⟩
    free m hd

/-! ### bmap -/

/-- include/bmap.h:60-70 with the default value list. -/
structure B where
  keys : T
  values : T
  deriving DecidableEq, Repr

/-- include/bmap.h:79-81. -/
def binit : B := ⟨tinit, tinit⟩

/-- include/bmap.h:126-133; the map, the result and the final `tmp.ss`, `none` for -1. `p` is the position for the key. -/
def insert_nocheck (ok : Nat → Bool) (m : Mem) (b : B) (k v p : Nat) : C (Mem × B × Option Nat × Option Nat) := do
  let (m, ks, r) ← tinsert ok m b.keys k p
  if r then do
    let (m, vs, r) ← tinsert ok m b.values v p
    if r then pure (m, ⟨ks, vs⟩, some p, some p)
    else do
      let ks ← tdel ks p
      pure (m, ⟨ks, vs⟩, none, some p)
  else pure (m, { b with keys := ks }, none, none)

/-- include/bmap.h:137-141 for a key that is not in the map: the value is `tmp.ss`. -/
def insert_new (ok : Nat → Bool) (m : Mem) (b : B) (k v p : Nat) : C (Mem × B × Option Nat) := do
  let (m, b, _, ss) ← insert_nocheck ok m b k v p
  pure (m, b, ss)

/-- include/bmap.h:143-147. -/
def delete (b : B) (i : Nat) : C B := do
  let ks ← tdel b.keys i
  let vs ← tdel b.values i
  pure ⟨ks, vs⟩

/-- include/bmap.h:96-101; keys and values have the size of a pointer. -/
def fini (m : Mem) (b : B) (flags : Nat) : C Mem := do
  let (m, ks) ← (if flags &&& 1 ≠ 0 then tfreeValues m b.keys else pure (m, b.keys))
  let (m, vs) ← (if flags &&& 2 ≠ 0 then tfreeValues m b.values else pure (m, b.values))
  let m ← tfreeItems m ks
  tfreeItems m vs

/-- What a program does with a map whose keys and values are blocks it owns: store a new value under a key, which is found at index
    `i` or would have to be inserted at position `p`; or remove entry `i`. -/
inductive MOp where
  | put (found : Option Nat) (p : Nat)
  | remove (i : Nat)

/-- One operation of the program. `ins` is how it inserts a key that is not in the map yet; `n` is the number of entries it thinks the
    map has. Storing: key and value are allocated. If the key was found, the old value and the new key are freed and the value is set
    (include/bmap.h:104); otherwise both are inserted, and freed if the insertion returns -1. Removing: key and value are freed, then
    the entry is deleted. Indices that do not exist are not used. -/
def mstep (ins : (Nat → Bool) → Mem → B → Nat → Nat → Nat → C (Mem × B × Option Nat)) (ok : Nat → Bool) (m : Mem) (b : B) (n : Nat) :
    MOp → C (Mem × B × Nat)
  | .put found p =>
    if b.keys.vals.length < p then pure (m, b, n)
    else do
      let (m, k) := alloc ok m
      if k = 0 then pure (m, b, n)
      else do
        let (m, v) := alloc ok m
        if v = 0 then do pure (← free m k, b, n)
        else
          match found with
          | some i =>
            if i < b.keys.vals.length then do
              let m ← free m (← tget b.values i)
              let vs ← tset b.values v i
              pure (← free m k, { b with values := vs }, n)
            else do
              let m ← free m k
              pure (← free m v, b, n)
          | none => do
            let (m, b, r) ← ins ok m b k v p
            match r with
            | some _ => pure (m, b, n + 1)
            | none => do
              let m ← free m k
              pure (← free m v, b, n)
  | .remove i =>
    if i < b.keys.vals.length then do
      let m ← free m (← tget b.keys i)
      let m ← free m (← tget b.values i)
      pure (m, ← delete b i, n - 1)
    else pure (m, b, n)

/-- A history of operations. -/
def mrun (ins : (Nat → Bool) → Mem → B → Nat → Nat → Nat → C (Mem × B × Option Nat)) (ok : Nat → Bool) :
    Mem → B → Nat → List MOp → C (Mem × B × Nat)
  | m, b, n, [] => pure (m, b, n)
  | m, b, n, op :: ops => do
    let (m, b, n) ← mstep ins ok m b n op
    mrun ins ok m b n ops

/-- Insertion with `bmap_insert_nocheck`. -/
def viaNocheck (ok : Nat → Bool) (m : Mem) (b : B) (k v p : Nat) : C (Mem × B × Option Nat) := do
  let (m, b, r, _) ← insert_nocheck ok m b k v p
  pure (m, b, r)

/-! ### hbmap -/

/-- One operation on bucket `j` (include/hbmap.h:157-160, 133-134, 169-170); `hbmap_insert` of a key that is not found is
    `hbmap_insert_nocheck` (include/hbmap.h:164-167). -/
def hstep (ok : Nat → Bool) (m : Mem) (h : List B) (j : Nat) (op : MOp) : C (Mem × List B) :=
  match h[j]? with
  | none => pure (m, h)
  | some b => do
    let (m, b, _) ← mstep viaNocheck ok m b b.keys.vals.length op
    pure (m, h.set j b)

/-- A history of operations, each with its bucket. -/
def hrun (ok : Nat → Bool) : Mem → List B → List (Nat × MOp) → C (Mem × List B)
  | m, h, [] => pure (m, h)
  | m, h, (j, op) :: ops => do
    let (m, h) ← hstep ok m h j op
    hrun ok m h ops

/-- include/hbmap.h:80-83. -/
def hfini (m : Mem) (flags : Nat) : List B → C Mem
  | [] => pure m
  | b :: bs => do
    let m ← fini m b flags
    hfini m flags bs

/-- `hbmap_new` (include/hbmap.h:67-71), the operations, `hbmap_fini`, `free`. -/
def hlifetime (ok : Nat → Bool) (m : Mem) (nb : Nat) (ops : List (Nat × MOp)) (flags : Nat) : C Mem := do
  let (m, hd) := alloc ok m
  if hd = 0 then pure m
  else do
    let (m, h) ← hrun ok m (List.replicate nb binit) ops
    let m ← hfini m flags h
    free m hd

/-- sizeof(bmap_proto) and offsetof(hbmap_proto(1), buckets) (include/hbmap.h:27-34, include/bmap.h:60-70, LP64). -/
def bmapSize : Nat := 80
def bucketsOff : Nat := 16
/-- offsetof(bmap_proto, compare): behind two lists of 32 bytes. -/
def compareOff : Nat := 64

/-- The loop of include/hbmap.h:56-57 for a block of `size` bytes: 8 bytes are written in each of `n` buckets from `i` on. -/
def setCompare (size i : Nat) : (n : Nat) → C Unit
  | 0 => pure ()
  | n + 1 =>
    if bucketsOff + i * bmapSize + compareOff + 8 ≤ size then setCompare size (i + 1) n else .error .oobWrite

/-- include/hbmap.h:67-71: `hbmap_new` with `numbuckets` buckets; `got` tells whether `malloc` succeeds. The size is computed in
    `size_t`. The result tells whether there is a map. -/
def hbmap_new (got : Bool) (numbuckets : Nat) : C Bool :=
  let size := szt (bucketsOff + szt (numbuckets * bmapSize))
  if got then
    -- `memset` stays within `size`; then the hash function is stored at offset 0
    if size < 8 then .error .oobWrite
    else do
      setCompare size 0 numbuckets
      pure true
  else pure false

end Ulz.Own

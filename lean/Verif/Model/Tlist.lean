import Verif.Model.Mem
/-! Model of tlist (src/tlist/tlist.c): the pointer code on an explicit heap.

The heap keeps one map per field of `struct item` (a store to one field cannot touch another field or
another node). Addresses are numbers, 0 is NULL. Every access to a node goes through a check that the
node is allocated. Recursion carries a depth budget; running out of it is `hang`. -/
namespace Ulz.Tlist

/-- A place in memory that holds a `pitem`: `t->root`, the local variables of `insert` (62-63) and
    `remove` (70), and the fields `l`, `r` of a node. -/
inductive Cell where
  | root | t1 | t2 | n
  | left (a : Nat)
  | right (a : Nat)
  deriving DecidableEq

/-- The heap: `struct item` of src/tlist/tlist.c:15-18, split by field, the data bytes stored behind it
    (95-103), which nodes are allocated, and addresses the user allocated for other purposes (`ext`). -/
structure Heap where
  ptr : Cell → Nat
  prior : Nat → Nat
  cnt : Nat → Nat
  data : Nat → List Byte
  live : Nat → Bool
  ext : List Nat

/-- Update of a map. -/
def upd {α β : Type} [DecidableEq α] (f : α → β) (a : α) (b : β) : α → β := fun x => if x = a then b else f x

/-- `unsigned` arithmetic. -/
def u32 (n : Nat) : Nat := n % 2^32

/-- Check made before every access `a->...`. -/
def chk (h : Heap) (a : Nat) : C Unit :=
  if a = 0 then .error .nullDeref else if h.live a then .ok () else .error .oobRead

/-- Check made before every access of a place. -/
def chkCell (h : Heap) : Cell → C Unit
  | .left a => chk h a
  | .right a => chk h a
  | _ => .ok ()

/-- `*c`. -/
def load (h : Heap) (c : Cell) : C Nat := do
  chkCell h c
  pure (h.ptr c)

/-- `*c = v`. -/
def store (h : Heap) (c : Cell) (v : Nat) : C Heap := do
  chkCell h c
  pure { h with ptr := upd h.ptr c v }

/-- src/tlist/tlist.c:9-12; result: new seed and value. -/
def mrand (seed : Nat) : Nat × Nat :=
  let s := u32 ((seed + 1) * 1103515245 + 12345 - 1)
  (s, u32 (s + 1) % 2^31)

/-- src/tlist/tlist.c:20-22. -/
def cnt (h : Heap) (it : Nat) : C Nat :=
  if it ≠ 0 then do
    chk h it
    pure (h.cnt it)
  else pure 0

/-- src/tlist/tlist.c:24-27. -/
def upd_cnt (h : Heap) (it : Nat) : C Heap :=
  if it ≠ 0 then do
    let a ← cnt h (← load h (.left it))
    let b ← cnt h (← load h (.right it))
    pure { h with cnt := upd h.cnt it (u32 (a + b + 1)) }
  else pure h

/-- src/tlist/tlist.c:29-37. -/
def merge : (fuel : Nat) → Heap → (t : Cell) → (l r : Nat) → C Heap
  | 0, _, _, _, _ => .error .hang
  | fuel + 1, h, t, l, r => do
    let h ← (
      if l = 0 ∨ r = 0 then store h t (if l ≠ 0 then l else r)
      else do
        chk h l
        chk h r
        if h.prior l > h.prior r then do
          let h ← merge fuel h (.right l) (h.ptr (.right l)) r
          store h t l
        else do
          let h ← merge fuel h (.left r) l (h.ptr (.left r))
          store h t r)
    upd_cnt h (← load h t)

/-- src/tlist/tlist.c:39-50. -/
def split : (fuel : Nat) → Heap → (t : Nat) → (l r : Cell) → (key add : Nat) → C Heap
  | 0, _, _, _, _, _, _ => .error .hang
  | fuel + 1, h, t, l, r, key, add =>
    if t = 0 then do
      let h ← store h r 0
      store h l 0
    else do
      let cl ← cnt h (← load h (.left t))
      let cur_key := u32 (add + cl)
      let h ← (
        if key ≤ cur_key then do
          let h ← split fuel h (← load h (.left t)) l (.left t) key add
          store h r t
        else do
          let h ← split fuel h (← load h (.right t)) (.right t) r key (u32 (add + 1 + cl))
          store h l t)
      upd_cnt h t

/-- src/tlist/tlist.c:52-60. -/
def getitem : (fuel : Nat) → Heap → (t idx add : Nat) → C Nat
  | 0, _, _, _, _ => .error .hang
  | fuel + 1, h, t, idx, add =>
    if t = 0 then pure 0
    else do
      let ls ← cnt h (← load h (.left t))
      let cur_key := u32 (add + ls)
      if cur_key = idx then pure t
      else if cur_key < idx then do
        getitem fuel h (← load h (.right t)) idx (u32 (add + 1 + ls))
      else do
        getitem fuel h (← load h (.left t)) idx add

/-- src/tlist/tlist.c:62-67. -/
def insert (fuel : Nat) (h : Heap) (t : Cell) (n idx : Nat) : C Heap := do
  let h ← split fuel h (← load h t) .t1 .t2 idx 0
  let h ← merge fuel h t (← load h .t1) n
  merge fuel h t (← load h t) (← load h .t2)

/-- src/tlist/tlist.c:74-75: `cnt(it->l) + base` for a child, UINT_MAX if there is none. -/
def childKey (h : Heap) (it base : Nat) : C Nat :=
  if it ≠ 0 then do
    let c ← cnt h (← load h (.left it))
    pure (u32 (c + base))
  else pure (2^32 - 1)

/-- src/tlist/tlist.c:69-93. (`remove` of the C file; the name is taken in Lean.) -/
def removeAt : (fuel : Nat) → Heap → (t : Cell) → (idx add : Nat) → C Heap
  | 0, _, _, _, _ => .error .hang
  | fuel + 1, h, t, idx, add => do
    let tt ← load h t
    if tt = 0 then pure h
    else do
      let tl ← load h (.left tt)
      let tr ← load h (.right tt)
      let cl ← cnt h tl
      let cur_key := u32 (add + cl)
      let new_add := u32 (cur_key + 1)
      let lk ← childKey h tl add
      let rk ← childKey h tr new_add
      if cur_key = idx then merge fuel h t tl tr
      else if lk = idx then do
        let h ← merge fuel h .n (← load h (.left tl)) (← load h (.right tl))
        let h ← store h (.left tt) (← load h .n)
        upd_cnt h tt
      else if rk = idx then do
        let h ← merge fuel h .n (← load h (.left tr)) (← load h (.right tr))
        let h ← store h (.right tt) (← load h .n)
        upd_cnt h tt
      else if cur_key < idx then do
        let h ← removeAt fuel h (.right tt) idx new_add
        upd_cnt h tt
      else do
        let h ← removeAt fuel h (.left tt) idx add
        upd_cnt h tt

/-- src/tlist/tlist.c:105-109 (the root pointer is the cell `root` of the heap). -/
structure TL where
  seed : Nat
  itemsize : Nat
  heap : Heap

/-- `free(p)`: allowed for node addresses and for the user's own allocations. -/
def hfree (h : Heap) (p : Nat) : C Heap :=
  if h.live p then pure { h with live := upd h.live p false }
  else if p ∈ h.ext then pure { h with ext := h.ext.erase p }
  else .error .badFree

/-- src/tlist/tlist.c:95-103. `mem` is what `malloc` returns (`none` is NULL). -/
def new_item (h : Heap) (mem : Option Nat) (value : List Byte) (valsz seed : Nat) : C (Heap × Nat × Nat) :=
  match mem with
  | none => pure (h, 0, seed)
  | some n => do
    let v ← rdN value 0 valsz
    let (seed, p) := mrand seed
    pure ({ h with
      ptr := upd (upd h.ptr (.left n) 0) (.right n) 0, prior := upd h.prior n p, cnt := upd h.cnt n 1,
      data := upd h.data n v, live := upd h.live n true }, n, seed)

/-- src/tlist/tlist.c:111-118 (malloc of the header succeeds). -/
def tlist_new (itemsize : Nat) (ext : List Nat) : TL :=
  ⟨384, itemsize, ⟨fun _ => 0, fun _ => 0, fun _ => 0, fun _ => [], fun _ => false, ext⟩⟩

/-- sizeof(struct item): two `unsigned` and two pointers. -/
def hdr : Nat := 24

/-- src/tlist/tlist.c:120-122. -/
def dataPtr (it : Nat) : Nat := it + hdr

/-- src/tlist/tlist.c:124-126. -/
def tlist_getsize (t : TL) : C Nat := cnt t.heap (t.heap.ptr .root)

/-- Recursion budget: one more than the number of items suffices for every call. -/
def depth (n : Nat) : Nat := n + 2

/-- src/tlist/tlist.c:128-130: the returned address. -/
def tlist_get (t : TL) (idx : Nat) : C Nat := do
  let n ← tlist_getsize t
  let it ← getitem (depth n) t.heap (t.heap.ptr .root) (u32 idx) 0
  pure (dataPtr it)

/-- src/tlist/tlist.c:132-138. -/
def tlist_insert (t : TL) (idx : Nat) (value : List Byte) (mem : Option Nat) : C (TL × Nat) := do
  let n ← tlist_getsize t
  if idx > n then pure (t, 0)
  else do
    let (h, new, seed) ← new_item t.heap mem value t.itemsize t.seed
    if new = 0 then pure ({ t with heap := h, seed := seed }, 0)
    else do
      let h ← insert (depth n) h .root new (u32 idx)
      pure ({ t with heap := h, seed := seed }, 1)

/-- src/tlist/tlist.c:140-142. -/
def tlist_append (t : TL) (value : List Byte) (mem : Option Nat) : C (TL × Nat) := do
  tlist_insert t (← tlist_getsize t) value mem

/-- src/tlist/tlist.c:144-151. -/
def tlist_delete_impl (t : TL) (idx : Nat) (deep : Bool) : C (TL × Nat) := do
  let n ← tlist_getsize t
  if idx ≥ n then pure (t, 0)
  else do
    let it ← getitem (depth n) t.heap (t.heap.ptr .root) (u32 idx) 0
    let h ← (if deep then hfree t.heap (dataPtr it) else pure t.heap)
    let h ← removeAt (depth n) h .root (u32 idx) 0
    let h ← hfree h it
    pure ({ t with heap := h }, 1)

/-- src/tlist/tlist.c:161-163. -/
def freeItemsLoop : (fuel : Nat) → TL → (deep : Bool) → C TL
  | 0, _, _ => .error .hang
  | fuel + 1, t, deep => do
    let n ← tlist_getsize t
    if n ≠ 0 then do
      let (t, _) ← tlist_delete_impl t 0 deep
      freeItemsLoop fuel t deep
    else pure t

/-- src/tlist/tlist.c:165-171. -/
def tlist_free_items (t : TL) (deep : Bool) : C TL := do
  freeItemsLoop ((← tlist_getsize t) + 1) t deep

/-! ### Operation sequences -/

/-- One call of the API, with the address `malloc` would return. -/
inductive Op where
  | insert (idx : Nat) (x : List Byte) (mem : Option Nat)
  | append (x : List Byte) (mem : Option Nat)
  | delete (idx : Nat)
  | get (idx : Nat)
  | getsize

/-- What the caller sees. -/
inductive Res where
  | int (n : Nat)
  | item (x : Option (List Byte))
  deriving DecidableEq

/-- Content behind an address that `tlist_get` returned: `none` if no item's data is there. -/
def content (t : TL) (p : Nat) : Option (List Byte) :=
  if hdr ≤ p ∧ t.heap.live (p - hdr) = true then some (t.heap.data (p - hdr)) else none

/-- One call. -/
def step (t : TL) : Op → C (TL × Res)
  | .insert idx x mem => do let (t, r) ← tlist_insert t idx x mem; pure (t, .int r)
  | .append x mem => do let (t, r) ← tlist_append t x mem; pure (t, .int r)
  | .delete idx => do let (t, r) ← tlist_delete_impl t idx false; pure (t, .int r)
  | .get idx => do let p ← tlist_get t idx; pure (t, .item (content t p))
  | .getsize => do let n ← tlist_getsize t; pure (t, .int n)

/-- A sequence of calls. -/
def run (t : TL) : List Op → C (TL × List Res)
  | [] => pure (t, [])
  | op :: ops => do
    let (t, r) ← step t op
    let (t, rs) ← run t ops
    pure (t, r :: rs)

end Ulz.Tlist

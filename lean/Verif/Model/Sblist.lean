import Verif.Model.Mem
/-! Model of sblist (src/sblist), on the bytes of its buffer. -/
namespace Ulz.Sblist

/-- include/sblist.h:24-30. `items` is the object the pointer points to; NULL is the empty object. -/
structure SB where
  itemsize : Nat
  blockitems : Nat
  count : Nat
  capa : Nat
  items : List Byte
  deriving DecidableEq, Repr

/-- src/sblist/sblist.c:21-27 (and 9-13 when its malloc succeeds; on failure `sblist_new` returns NULL
    because `sblist_init` ignores NULL). Division by an item size of 0 when blockitems is 0. -/
def init (itemsize blockitems : Nat) : C SB :=
  if blockitems ≠ 0 then pure ⟨itemsize, blockitems, 0, 0, []⟩
  else if itemsize = 0 then throw .divZero
  else pure ⟨itemsize, 4096 / itemsize, 0, 0, []⟩

/-- src/sblist/sblist_new_from_data.c:4-12 (malloc of the header succeeds). -/
def new_from_data (itemsize : Nat) (data : List Byte) : C SB :=
  if itemsize = 0 then throw .divZero
  else pure ⟨itemsize, 0, data.length / itemsize, data.length / itemsize, data⟩

/-- src/sblist/sblist.c:47-50: offset of the returned pointer (43-45), `none` for NULL. -/
def get (l : SB) (item : Nat) : Option Nat :=
  if item < l.count then some (szt (item * l.itemsize)) else none

/-- src/sblist/sblist.c:52-56. `item` is the object pointed to. -/
def set (l : SB) (item : List Byte) (pos : Nat) : C (SB × Nat) :=
  if pos ≥ l.count then pure (l, 0)
  else do
    let x ← rdN item 0 l.itemsize
    let items ← wrN l.items (szt (pos * l.itemsize)) x
    pure ({ l with items := items }, 1)

/-- src/sblist/sblist.c:58-67. -/
def grow_if_needed (a : Alloc) (l : SB) : SB × Nat :=
  if l.count = l.capa then
    match realloc a l.items (szt ((l.capa + l.blockitems) * l.itemsize)) with
    | none => (l, 0)
    | some t => ({ l with capa := l.capa + l.blockitems, items := t }, 1)
  else (l, 1)

/-- src/sblist/sblist.c:69-73. -/
def add (a : Alloc) (l : SB) (item : List Byte) : C (SB × Nat) :=
  let (l, ok) := grow_if_needed a l
  if ok = 0 then pure (l, 0)
  else
    let l := { l with count := l.count + 1 }
    set l item (l.count - 1)

/-- src/sblist/sblist_addi.c:3-8; `none` is -1. -/
def addi (a : Alloc) (l : SB) (item : List Byte) : C (SB × Option Nat) :=
  let (l, ok) := grow_if_needed a l
  if ok = 0 then pure (l, none)
  else do
    let l := { l with count := l.count + 1 }
    let (l, _) ← set l item (l.count - 1)
    pure (l, some (l.count - 1))

/-- src/sblist/sblist_insert.c:4-9. -/
def insert (a : Alloc) (l : SB) (item : List Byte) (pos : Nat) : C (SB × Nat) :=
  let (l, ok) := grow_if_needed a l
  if ok = 0 then pure (l, 0)
  else do
    let items ← memmove l.items (szt ((pos + 1) * l.itemsize)) (szt (pos * l.itemsize))
      (szt (sztSub l.count pos * l.itemsize))
    let l := { l with items := items, count := l.count + 1 }
    set l item pos

/-- src/sblist/sblist_delete.c:4-9. -/
def delete (l : SB) (item : Nat) : C SB :=
  if l.count ≠ 0 ∧ item < l.count then do
    let items ← memmove l.items (szt (item * l.itemsize)) (szt ((item + 1) * l.itemsize))
      (szt ((l.count - (item + 1)) * l.itemsize))
    pure { l with items := items, count := l.count - 1 }
  else pure l

/-- src/sblist/sblist_pop.c:2-10: offset of the returned pointer. -/
def pop (l : SB) : C (SB × Option Nat) :=
  if l.count > 0 then do
    let x := get l (l.count - 1)
    let l ← delete l (l.count - 1)
    pure (l, x)
  else pure (l, none)

/-- Dereference of a pointer returned by `get`, as a comparison function does; NULL is not allowed. -/
def deref (l : SB) (p : Option Nat) : C (List Byte) :=
  match p with
  | none => .error .nullDeref
  | some o => rdN l.items o l.itemsize

/-- src/sblist/sblist_bsearch.c:4-13 (`_r` is the same with a context pointer the comparison closes
    over); `none` is -1. -/
def bsearchLoop (l : SB) (item : List Byte) (compar : List Byte → List Byte → Int) (base nel : Nat) :
    C (Option Nat) :=
  if _h : nel > 0 then do
    let x := base + nel / 2
    let p ← deref l (get l x)
    let c := compar item p
    if c < 0 then bsearchLoop l item compar base (nel / 2)
    else if c > 0 then bsearchLoop l item compar (x + 1) (nel - (nel / 2 + 1))
    else pure (some x)
  else pure none
  termination_by nel
  decreasing_by all_goals omega

/-- src/sblist/sblist_bsearch.c:2-14, src/sblist/sblist_bsearch_r.c:2-14. -/
def bsearch (l : SB) (item : List Byte) (compar : List Byte → List Byte → Int) : C (Option Nat) :=
  bsearchLoop l item compar 0 l.count

/-- src/sblist/sblist_insert_sorted.c:10-24: the position at which the item will be inserted.
    Bounded by `fuel`; running out is `hang`. -/
def sortedPos (l : SB) (o : List Byte) (compar : List Byte → List Byte → Int) :
    (fuel hi lo : Nat) → C Nat
  | 0, _, _ => .error .hang
  | fuel + 1, hi, lo => do
    let c := hi + (lo - hi) / 2
    let p ← deref l (get l c)
    let r := compar o p
    if hi = lo then
      pure (if r > 0 then lo + 1 else lo)
    else
      let (hi, lo) :=
        if r < 0 then (hi, if c ≠ 0 then c - 1 else 0)
        else if r > 0 then (c + 1, lo)
        else (c, c)
      let hi := if hi > lo then lo else hi
      sortedPos l o compar fuel hi lo

/-- src/sblist/sblist_insert_sorted.c:6-24. -/
def sortedIndex (l : SB) (o : List Byte) (compar : List Byte → List Byte → Int) : C Nat :=
  if l.count = 0 then pure 0 else sortedPos l o compar (l.count + 1) 0 (l.count - 1)

/-- src/sblist/sblist_insert_sorted.c:4-25, src/sblist/sblist_insert_sorted_r.c:4-25. -/
def insert_sorted (a : Alloc) (l : SB) (o : List Byte) (compar : List Byte → List Byte → Int) :
    C (SB × Option Nat) := do
  let lo ← sortedIndex l o compar
  let (l, ok) ← insert a l o lo
  if ok ≠ 0 then pure (l, some lo) else pure (l, none)

/-- `free(p)`, `live` being the addresses returned by the allocator and not yet freed. -/
def hfree (live : List Nat) (p : Nat) : C (List Nat) :=
  if p ∈ live then pure (live.erase p) else .error .badFree

/-- src/sblist/sblist_free_values.c:4-8: the loop from index `i` with `n` rounds to go. The list's
    buffer is at address `base`, so the pointer passed to `free` is `base` plus the offset that
    `sblist_get` computes; `free(NULL)` does nothing. -/
def freeValuesLoop (l : SB) (base : Nat) : (n i : Nat) → (live : List Nat) → C (List Nat)
  | 0, _, live => pure live
  | n + 1, i, live =>
    match get l i with
    | none => freeValuesLoop l base n (i + 1) live
    | some o => do freeValuesLoop l base n (i + 1) (← hfree live (base + o))

/-- src/sblist/sblist_free_values.c:4-8; result: the addresses still allocated. -/
def free_values (l : SB) (base : Nat) (live : List Nat) : C (List Nat) := freeValuesLoop l base l.count 0 live

/-! ### Operation sequences -/

/-- One call of the API, with what the allocator would do during it. -/
inductive Op where
  | add (x : List Byte) (a : Alloc)
  | addi (x : List Byte) (a : Alloc)
  | set (x : List Byte) (pos : Nat)
  | get (i : Nat)
  | insert (x : List Byte) (pos : Nat) (a : Alloc)
  | delete (i : Nat)
  | pop

/-- What the caller sees: an int, an index, or the bytes behind the returned pointer. -/
inductive Res where
  | int (n : Nat)
  | index (i : Option Nat)
  | item (x : Option (List Byte))
  | unit
  deriving DecidableEq

/-- Content behind a returned pointer. -/
def content (l : SB) : Option Nat → C (Option (List Byte))
  | none => pure none
  | some o => do pure (some (← rdN l.items o l.itemsize))

/-- One call. -/
def step (l : SB) : Op → C (SB × Res)
  | .add x a => do let (l, r) ← add a l x; pure (l, .int r)
  | .addi x a => do let (l, r) ← addi a l x; pure (l, .index r)
  | .set x pos => do let (l, r) ← set l x pos; pure (l, .int r)
  | .get i => do pure (l, .item (← content l (get l i)))
  | .insert x pos a => do let (l, r) ← insert a l x pos; pure (l, .int r)
  | .delete i => do pure (← delete l i, .unit)
  | .pop => do let (l, p) ← pop l; pure (l, .item (← content l p))

/-- A sequence of calls. -/
def run (l : SB) : List Op → C (SB × List Res)
  | [] => pure (l, [])
  | op :: ops => do
    let (l, r) ← step l op
    let (l, rs) ← run l ops
    pure (l, r :: rs)

end Ulz.Sblist

import Verif.Model.Sblist
import Verif.Model.Tglist
import Verif.Model.Hex
import Verif.Model.Stringptr
/-! Model of include/stringlist.h and include/sptrlist.h (lists of pointers, kept in an sblist), of
    src/sblist/sblist_sort.c and of src/stringptrlist/stringptrlist_freeall.c. Pointers are 8 bytes, little endian. -/
namespace Ulz.Stringlist
open Ulz.Sblist (SB)
open Ulz.Tglist (leVal leBytes)

/-- The objects `malloc` has given out and that are not yet freed: address and content. -/
abbrev Heap := List (Nat × List Byte)

/-- `free(p)` for a pointer that is not NULL. -/
def hfree (h : Heap) (p : Nat) : C Heap :=
  if p ∈ h.map Prod.fst then pure (h.filter (fun e => e.1 ≠ p)) else .error .badFree

/-- include/stringlist.h:9: `stringlist_new(N)` (the malloc of the header succeeds). -/
def new (n : Nat) : C SB := Sblist.init 8 n

/-- include/stringlist.h:12-15. The result is an address, 0 for NULL. -/
def get (l : SB) (idx : Nat) : C Nat :=
  match Sblist.get l idx with
  | none => pure 0
  | some o => do pure (leVal (← rdN l.items o 8))

/-- include/stringlist.h:23: `stringlist_add` (also include/sptrlist.h:20). -/
def add (a : Alloc) (l : SB) (p : Nat) : C (SB × Nat) := Sblist.add a l (leBytes 8 p)

/-- include/stringlist.h:24-31. `s` is the memory from the argument on; `p` is the address `strdup` returns, `none` for
    NULL; `a` is what the allocator does if the list has to grow. -/
def add_dup (h : Heap) (p : Option Nat) (a : Alloc) (l : SB) (s : List Byte) : C (SB × Heap × Nat) := do
  let n ← Hex.strlen s
  match p with
  | none => pure (l, h, 0)
  | some x => do
    let h := (x, s.take (n + 1)) :: h
    let (l, r) ← add a l x
    if r = 0 then pure (l, ← hfree h x, 0)
    else pure (l, h, 1)

/-- include/stringlist.h:18-21: what the loop assigns to RES at index `i`. -/
def foreachGet (l : SB) (i : Nat) : C Nat := if l.count ≠ 0 then get l i else pure 0

/-- include/stringlist.h:18-21: the loop; the values of RES in the executions of its body, and RES after it. -/
def foreachLoop (l : SB) : (fuel i res : Nat) → C (List Nat × Nat)
  | 0, _, _ => .error .hang
  | fuel + 1, i, res =>
    if i < l.count then do
      let res' ← foreachGet l (i + 1)
      let (rs, last) ← foreachLoop l fuel (i + 1) res'
      pure (res :: rs, last)
    else pure ([], res)

/-- include/stringlist.h:18-21, for a body that does not change the list. -/
def foreach (l : SB) : C (List Nat × Nat) := do
  let res ← foreachGet l 0
  foreachLoop l (l.count + 1) 0 res

/-- include/sptrlist.h:19: `((void**)(sblist_get(X, Y)))[0]`. -/
def sptr_get (l : SB) (i : Nat) : C Nat :=
  match Sblist.get l i with
  | none => .error .nullDeref
  | some o => do pure (leVal (← rdN l.items o 8))

/-- include/sptrlist.h:21. -/
def sptr_set (l : SB) (p pos : Nat) : C (SB × Nat) := Sblist.set l (leBytes 8 p) pos

/-- A sequence of `stringlist_add_dup` calls: string, result of `strdup`, allocator. -/
def addDups (h : Heap) (l : SB) : List (List Byte × Option Nat × Alloc) → C (SB × Heap × List Nat)
  | [] => pure (l, h, [])
  | c :: cs => do
    let (l, h, r) ← add_dup h c.2.1 c.2.2 l c.1
    let (l, h, rs) ← addDups h l cs
    pure (l, h, r :: rs)

/-! ### src/sblist/sblist_sort.c -/

/-- src/sblist/sblist_sort.c:3-5. `qs` is the C library's qsort as a function of the comparison and the items: it is
    given the first `count` items of the buffer and rearranges them in place. With a count of 0 it does nothing. -/
def sort (qs : (List Byte → List Byte → Int) → List (List Byte) → List (List Byte)) (l : SB)
    (compar : List Byte → List Byte → Int) : C SB := do
  let xs ← (List.range l.count).mapM fun i => rdN l.items (i * l.itemsize) l.itemsize
  let items ← wrN l.items 0 (qs compar xs).flatten
  pure { l with items := items }

/-! ### src/stringptrlist/stringptrlist_freeall.c -/

/-- src/sblist/sblist.c:29-41 (`stringptrlist_free` is `sblist_free`, include/stringptrlist.h:14): the list object at address `hd`,
    its buffer at address `items` (0 for NULL). `live` are the allocated addresses. -/
def sblist_free (hd items : Nat) (live : List Nat) : C (List Nat) := do
  let live ← if items ≠ 0 then Sblist.hfree live items else pure live
  Sblist.hfree live hd

/-- src/stringptrlist/stringptrlist_freeall.c:3-8: the list (`none` for NULL) has its object at `hd`, its buffer at `items`,
    and the entries `es` (pointer and size). -/
def freeall (l : Option (Nat × Nat × List (Nat × Nat))) (live : List Nat) : C (List Nat) :=
  match l with
  | none => pure live
  | some (hd, items, es) => do
    let (_, live) ← Stringptr.freestrings es live
    sblist_free hd items live

end Ulz.Stringlist

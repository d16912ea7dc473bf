import Verif.Model.Sblist
import Verif.Model.Life
/-! Model of lists made from existing memory: src/sblist/sblist_new_from_data.c and the macro `sblist_set_blockitems`. -/
namespace Ulz.Fromdata
open Ulz.Sblist

/-- include/sblist.h:57. -/
def set_blockitems (l : SB) (n : Nat) : SB := { l with blockitems := n }

/-! ### The blocks behind such a list

    Here a `realloc` to 0 bytes counts, which may free the block and return NULL (ISO C 2017, 7.22.3.5; glibc does so): `frees0`. -/
open Ulz.Life (Mem alloc free)

/-- The object: the addresses of the header and of its items, and what decides about growth. -/
structure D where
  hd : Nat
  items : Nat
  itemsize : Nat
  blockitems : Nat
  count : Nat
  capa : Nat
  deriving DecidableEq, Repr

/-- src/sblist/sblist_new_from_data.c:4-12: `data` is the address of the data, `datalen` its size; `none` is NULL. -/
def dnew (ok : Nat → Bool) (m : Mem) (itemsize data datalen : Nat) : C (Mem × Option D) :=
  let (m, p) := alloc ok m
  if p = 0 then pure (m, none)
  else if itemsize = 0 then .error .divZero
  else pure (m, some ⟨p, data, itemsize, 0, datalen / itemsize, datalen / itemsize⟩)

/-- ISO C `realloc(p, n)` for `p` not NULL. -/
def drealloc (frees0 : Bool) (ok : Nat → Bool) (m : Mem) (p n : Nat) : C (Mem × Nat) :=
  if p ≠ 0 ∧ n = 0 ∧ frees0 then do
    let m ← free m p
    pure ({ m with next := m.next + 1 }, 0)
  else Life.realloc ok m p

/-- src/sblist/sblist.c:58-67: the blocks, the object and the result. -/
def dgrow (frees0 : Bool) (ok : Nat → Bool) (m : Mem) (l : D) : C (Mem × D × Bool) :=
  if l.count = l.capa then do
    let (m, q) ← drealloc frees0 ok m l.items (szt ((l.capa + l.blockitems) * l.itemsize))
    if q = 0 then pure (m, l, false)
    else pure (m, { l with items := q, capa := l.capa + l.blockitems }, true)
  else pure (m, l, true)

/-- src/sblist/sblist.c:29-41: `sblist_free`. -/
def dfree (m : Mem) (l : D) : C Mem := do
  let m ← free m l.items
  free m l.hd

end Ulz.Fromdata

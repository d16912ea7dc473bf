import Verif.Model.Tlist
/-! The functions of tlist on a stack of limited size: `d` is the number of nested calls of a recursive function there is room
for. (The functions in Model/Tlist have room for two more than there are items.) -/
namespace Ulz.Tlist

/-- src/tlist/tlist.c:128-130. -/
def tlist_get_room (d : Nat) (t : TL) (idx : Nat) : C Nat := do
  let it ← getitem d t.heap (t.heap.ptr .root) (u32 idx) 0
  pure (dataPtr it)

/-- src/tlist/tlist.c:132-138. -/
def tlist_insert_room (d : Nat) (t : TL) (idx : Nat) (value : List Byte) (mem : Option Nat) : C (TL × Nat) := do
  let n ← tlist_getsize t
  if idx > n then pure (t, 0)
  else do
    let (h, new, seed) ← new_item t.heap mem value t.itemsize t.seed
    if new = 0 then pure ({ t with heap := h, seed := seed }, 0)
    else do
      let h ← insert d h .root new (u32 idx)
      pure ({ t with heap := h, seed := seed }, 1)

/-- src/tlist/tlist.c:144-155. -/
def tlist_delete_room (d : Nat) (t : TL) (idx : Nat) : C (TL × Nat) := do
  let n ← tlist_getsize t
  if idx ≥ n then pure (t, 0)
  else do
    let it ← getitem d t.heap (t.heap.ptr .root) (u32 idx) 0
    let h ← removeAt d t.heap .root (u32 idx) 0
    let h ← hfree h it
    pure ({ t with heap := h }, 1)

end Ulz.Tlist

import Verif.Model.Tglist
/-! Model of include/tgilist.h with a signed index type (tests/tgilist_insert_test.c:75 uses `tgilist(int, short)`). Storing
an index converts a `size_t` to the index type; out of range this is implementation-defined and taken to keep the low bytes
(as gcc and clang do), so add, insert and delete are those of Verif/Model/Tglist.lean. Only reading an index differs. -/
namespace Ulz.Tgisigned
open Ulz.Tglist

/-- include/tgilist.h:57: index value at `pos`; `w` is sizeof(IDX_TYPE), a signed two's complement type. -/
def sidx (w : Nat) (l : TGI) (pos : Nat) : C Int := do
  let v := leVal (← Tglist.get w l.index pos)
  pure (if 2 * v < 256^w then (v : Int) else (v : Int) - ((256^w : Nat) : Int))

/-- include/tgilist.h:57. A negative index is an address before the block of items. -/
def sget (w isz : Nat) (l : TGI) (pos : Nat) : C (List Byte) := do
  let i ← sidx w l pos
  if i < 0 then .error .oobRead else Tglist.get isz l.items i.toNat

/-- include/tgilist.h:59. -/
def sset (w isz : Nat) (l : TGI) (item : List Byte) (pos : Nat) : C (TGI × Nat) := do
  let i ← sidx w l pos
  if i < 0 then .error .oobWrite
  else do
    let (t, r) ← Tglist.set isz l.items item i.toNat
    pure ({ l with items := t }, r)

/-- One call on a tgilist with a signed index type. -/
def sstep (w isz : Nat) (l : TGI) : IOp → C (TGI × Res)
  | .add x a1 a2 => do let (l, r) ← iadd w isz a1 a2 l x; pure (l, .int r)
  | .set x pos => do let (l, r) ← sset w isz l x pos; pure (l, .int r)
  | .get i => do pure (l, .item (← sget w isz l i))
  | .insert x pos a1 a2 => do let (l, r) ← iinsert w isz a1 a2 l x pos; pure (l, .int r)
  | .delete i => do pure (← idelete w l i, .unit)
  | .getsize => pure (l, .int l.index.count)

/-- A history of calls. -/
def srun (w isz : Nat) (l : TGI) : List IOp → C (TGI × List Res)
  | [] => pure (l, [])
  | op :: ops => do
    let (l, r) ← sstep w isz l op
    let (l, rs) ← srun w isz l ops
    pure (l, r :: rs)

end Ulz.Tgisigned

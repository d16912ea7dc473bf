import Verif.Model.Bmap
/-! Model of bmap compiled with `BMAP_USE_TGILIST` (include/bmap.h:45-52: the values are kept in a tgilist with indices of type
    `unsigned`), and of `bmap_fini` in both variants. -/
namespace Ulz.Ibmap
open Ulz.Tglist (TG TGI)
open Ulz.Bmap (Cfg BM keysList)

/-- sizeof(unsigned) -/
def W : Nat := 4

/-- include/bmap.h:60-70 with the value list of include/bmap.h:48-58. -/
structure BMI where
  keys : TG
  values : TGI
  deriving DecidableEq, Repr

/-- include/bmap.h:79-81. -/
def init : BMI := ⟨Tglist.init, Tglist.iinit⟩

/-- include/bmap.h:112-113, 149-154; `none` is -1. -/
def find (c : Cfg) (b : BMI) (key : List Byte) : C (Option Nat) := do
  let xs ← keysList c.ksz b.keys
  pure (c.bs key xs c.cmp)

/-- include/bmap.h:107. -/
def getkey (c : Cfg) (b : BMI) (i : Nat) : C (List Byte) := Tglist.get c.ksz b.keys i
/-- include/bmap.h:108. -/
def getval (c : Cfg) (b : BMI) (i : Nat) : C (List Byte) := Tglist.iget W c.vsz b.values i

/-- include/bmap.h:118-121: the item pointed to, `none` for NULL. -/
def get (c : Cfg) (b : BMI) (key : List Byte) : C (Option (List Byte)) := do
  match ← find c b key with
  | none => pure none
  | some i => do pure (some (← getval c b i))

/-- include/bmap.h:126-133: the map, the result and the final `tmp.ss`; `a1`, `a2`, `a3` are the allocations of the key array, the
    index array and the array of values. -/
def insert_nocheck (c : Cfg) (a1 a2 a3 : Alloc) (b : BMI) (key val : List Byte) : C (BMI × Option Nat × Option Nat) := do
  let (ks, p) ← Tglist.insert_sorted c.ksz a1 b.keys key c.cmp
  match p with
  | none => pure ({ b with keys := ks }, none, none)
  | some p => do
    let (vs, ok) ← Tglist.iinsert W c.vsz a2 a3 b.values val p
    if ok ≠ 0 then pure (⟨ks, vs⟩, some p, some p)
    else do
      let ks ← Tglist.delete c.ksz ks p
      pure (⟨ks, vs⟩, none, some p)

/-- include/bmap.h:137-141. The comma binds weaker than `?:`, so the value of the whole expression is `tmp.ss` in both cases. -/
def insert (c : Cfg) (a1 a2 a3 : Alloc) (b : BMI) (key val : List Byte) : C (BMI × Option Nat) := do
  match ← find c b key with
  | none => do
    let (b, _, ss) ← insert_nocheck c a1 a2 a3 b key val
    pure (b, ss)
  | some i => do
    let (vs, _) ← Tglist.iset W c.vsz b.values val i
    pure ({ b with values := vs }, some i)

/-- include/bmap.h:143-147. -/
def delete (c : Cfg) (b : BMI) (pos : Nat) : C BMI := do
  let ks ← Tglist.delete c.ksz b.keys pos
  let vs ← Tglist.idelete W b.values pos
  pure ⟨ks, vs⟩

/-! ### Client operations -/

inductive Op where
  | insert (k v : List Byte) (a1 a2 a3 : Alloc)
  | get (k : List Byte)
  | contains (k : List Byte)
  | del (k : List Byte)   -- find, then delete the found entry, if any

/-- One call: the map and what it returned. -/
def step (c : Cfg) (b : BMI) : Op → C (BMI × Bmap.Res)
  | .insert k v a1 a2 a3 => do
    let (b, r) ← insert c a1 a2 a3 b k v
    pure (b, .idx r)
  | .get k => do pure (b, .item (← get c b k))
  | .contains k => do pure (b, .bool (← find c b k).isSome)
  | .del k => do
    match ← find c b k with
    | none => pure (b, .bool false)
    | some i => do pure (← delete c b i, .bool true)

/-- A history of calls. -/
def run (c : Cfg) (b : BMI) : List Op → C (BMI × List Bmap.Res)
  | [] => pure (b, [])
  | op :: ops => do
    let (b, r) ← step c b op
    let (b, rs) ← run c b ops
    pure (b, r :: rs)

/-! ### Destruction -/

/-- include/bmap.h:97-98: `if(FREEFLAGS & 1) {tglist_free_values(...);}`. -/
def freeIf (bit isz : Nat) (l : TG) (live : List Nat) : C (List Nat) :=
  if bit ≠ 0 then do pure (← Tglist.free_values isz l live).2 else pure live

/-- include/bmap.h:96-101 with the default value list. `ka` and `va` are the addresses of the two arrays (0 if there is none),
    `live` the allocated addresses. The lists themselves are not used any more. -/
def fini (c : Cfg) (b : BM) (ka va flags : Nat) (live : List Nat) : C (List Nat) := do
  let live ← freeIf (flags &&& 1) c.ksz b.keys live
  let live ← freeIf (flags &&& 2) c.vsz b.values live
  let live ← Tglist.hfree live ka
  Tglist.hfree live va

/-- The same with a tgilist (include/tgilist.h:50-55): `tgilist_free_values` frees the items of the array of values, whether or not
    they are indexed; `xa` is the address of the index array. -/
def ifini (c : Cfg) (b : BMI) (ka xa va flags : Nat) (live : List Nat) : C (List Nat) := do
  let live ← freeIf (flags &&& 1) c.ksz b.keys live
  let live ← freeIf (flags &&& 2) c.vsz b.values.items live
  let live ← Tglist.hfree live ka
  let live ← Tglist.hfree live xa
  Tglist.hfree live va

end Ulz.Ibmap

import Verif.Model.Bmap
/-! Loops over an hbmap (`hbmap_foreach`, include/hbmap.h:121-125) whose body changes the map. -/
namespace Ulz.Bmap

/-- include/hbmap.h:121-125: the loop of `hbmap_foreach` from `it` on, with a body that may change the map
    (but not the iterator). -/
def foreachBodyFrom (body : List BM → Iter → C (List BM)) : (fuel : Nat) → List BM → Iter → C (List BM)
  | 0, _, _ => .error .hang
  | fuel + 1, h, it => do
    if ← iterValid h it then do
      let h ← body h it
      let it ← nextValid h (h.length + 1) it
      foreachBodyFrom body fuel h it
    else pure h

/-- include/hbmap.h:121-125: `hbmap_foreach(map, it) body`. -/
def foreachBody (body : List BM → Iter → C (List BM)) (h : List BM) (fuel : Nat) : C (List BM) := do
  let it ← (do if ← iterValid h 0 then pure 0#64 else nextValid h (h.length + 1) 0)
  foreachBodyFrom body fuel h it

/-- The loop body recommended at include/hbmap.h:119:
    `while(hbmap_iter_index_valid(map, i)) hbmap_delete(map, i);`. -/
def drain (c : HCfg) : (fuel : Nat) → List BM → Iter → C (List BM)
  | 0, _, _ => .error .hang
  | fuel + 1, h, it => do
    if ← indexValid h it then do
      let h ← hdelete c h it
      drain c fuel h it
    else pure h

/-- The same body for deleting some of the entries (include/hbmap.h:117-119 "something like"):
    `while(hbmap_iter_index_valid(map, i) && p(hbmap_getkey(map, i), hbmap_getval(map, i)))
    hbmap_delete(map, i);`. -/
def drainIf (c : HCfg) (p : List Byte → List Byte → Bool) : (fuel : Nat) → List BM → Iter → C (List BM)
  | 0, _, _ => .error .hang
  | fuel + 1, h, it => do
    if ← indexValid h it then do
      let k ← hgetkey c h it
      let v ← hgetval c h it
      if p k v then do
        let h ← hdelete c h it
        drainIf c p fuel h it
      else pure h
    else pure h

/-- What a read-only `hbmap_foreach` loop sees (include/hbmap.h:121-131): iterator, key and value of each
    entry, in order. -/
def seen (c : HCfg) (h : List BM) (fuel : Nat) : C (List (Iter × List Byte × List Byte)) := do
  let its ← foreach h fuel
  its.mapM fun it => do pure (it, ← hgetkey c h it, ← hgetval c h it)

end Ulz.Bmap

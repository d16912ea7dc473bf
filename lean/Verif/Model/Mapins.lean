import Verif.Model.Mapdel
/-! Loops over an hbmap (`hbmap_foreach`, include/hbmap.h:121-125) whose body inserts entries. -/
namespace Ulz.Bmap

/-- One insertion: key, value, and whether the two lists of the bucket get memory when they need it. -/
structure Ins where
  key : List Byte
  val : List Byte
  a1 : Alloc
  a2 : Alloc

/-- Calls of `hbmap_insert` (include/hbmap.h:164-167), one after the other. -/
def insertAll (c : HCfg) (h : List BM) : List Ins → C (List BM)
  | [] => pure h
  | i :: is => do
    let (h, _) ← hinsert c i.a1 i.a2 h i.key i.val
    insertAll c h is

/-- include/hbmap.h:121-131: the loop of `hbmap_foreach` from `it` on; the body reads key and value
    (`hbmap_getkey`, `hbmap_getval`) and makes the insertions `body T`, where `T` lists the keys and values read
    so far, the present one last. Result: the map and all that was read. -/
def insertLoopFrom (c : HCfg) (body : List (List Byte × List Byte) → List Ins) :
    (fuel : Nat) → List BM → Iter → List (List Byte × List Byte) → C (List BM × List (List Byte × List Byte))
  | 0, _, _, _ => .error .hang
  | fuel + 1, h, it, T => do
    if ← iterValid h it then do
      let k ← hgetkey c h it
      let v ← hgetval c h it
      let h ← insertAll c h (body (T ++ [(k, v)]))
      let it ← nextValid h (h.length + 1) it
      insertLoopFrom c body fuel h it (T ++ [(k, v)])
    else pure (h, T)

/-- include/hbmap.h:121-125: `hbmap_foreach(map, it)` with such a body. -/
def insertLoop (c : HCfg) (body : List (List Byte × List Byte) → List Ins) (h : List BM) (fuel : Nat) :
    C (List BM × List (List Byte × List Byte)) := do
  let it ← (do if ← iterValid h 0 then pure 0#64 else nextValid h (h.length + 1) 0)
  insertLoopFrom c body fuel h it []

end Ulz.Bmap

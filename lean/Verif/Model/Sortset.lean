import Verif.Model.Sblist
/-! Programs that keep a sorted sblist as a table of keys: search before adding, search before deleting. The calls are those of
src/sblist; the programs around them are the model's. -/
namespace Ulz.Sortset
open Ulz.Sblist

/-- `sblist_bsearch` (src/sblist/sblist_bsearch.c:2-14), and if there is no such item `sblist_insert_sorted`
    (src/sblist/sblist_insert_sorted.c:4-25): 0 if the key was there, 1 if it was added, 2 if there was no memory. -/
def addKey (a : Alloc) (l : SB) (x : List Byte) (cmp : List Byte → List Byte → Int) : C (SB × Nat) := do
  match ← bsearch l x cmp with
  | some _ => pure (l, 0)
  | none =>
    match ← insert_sorted a l x cmp with
    | (l, some _) => pure (l, 1)
    | (l, none) => pure (l, 2)

/-- `sblist_bsearch`, and if there is such an item `sblist_delete` (src/sblist/sblist_delete.c:4-9): 1 if an item was deleted. -/
def removeKey (l : SB) (x : List Byte) (cmp : List Byte → List Byte → Int) : C (SB × Nat) := do
  match ← bsearch l x cmp with
  | some i => pure (← delete l i, 1)
  | none => pure (l, 0)

/-- `sblist_bsearch`, and if there is such an item its bytes, by `sblist_get` (src/sblist/sblist.c:47-50). -/
def findKey (l : SB) (x : List Byte) (cmp : List Byte → List Byte → Int) : C (Option (List Byte)) := do
  match ← bsearch l x cmp with
  | some i => pure (some (← deref l (get l i)))
  | none => pure none

/-- What a program does with the table (the programs are the model's, no lines of the repository). -/
inductive Op where
  | add (x : List Byte) (a : Alloc)
  | remove (x : List Byte)
  | find (x : List Byte)

/-- What it got (the model's own type). -/
inductive Res where
  | int (n : Nat)
  | item (x : Option (List Byte))
  deriving DecidableEq

/-- One operation, by the functions above. -/
def step (cmp : List Byte → List Byte → Int) (l : SB) : Op → C (SB × Res)
  | .add x a => do let (l, r) ← addKey a l x cmp; pure (l, .int r)
  | .remove x => do let (l, r) ← removeKey l x cmp; pure (l, .int r)
  | .find x => do pure (l, .item (← findKey l x cmp))

/-- A history of operations. -/
def run (cmp : List Byte → List Byte → Int) (l : SB) : List Op → C (SB × List Res)
  | [] => pure (l, [])
  | op :: ops => do
    let (l, r) ← step cmp l op
    let (l, rs) ← run cmp l ops
    pure (l, r :: rs)

end Ulz.Sortset

import Verif.Model.Tglist
/-! Model of the list functions when the item handed in lies in the list itself: sblist takes a pointer to
the item, the tglist macros take an expression that they evaluate after they have made room. The lists are
those of Model/Sblist.lean and Model/Tglist.lean. -/
namespace Ulz.Alias
open Ulz.Sblist (SB)
open Ulz.Tglist (TG)

/-- What can go wrong besides the undefined behaviour of `UB`: the item lies in memory given back by
    `realloc`, or `memcpy` is called with areas that overlap (ISO C 7.24.2.1). -/
inductive Fault where
  | ub (e : UB)
  | freed
  | overlap
  deriving DecidableEq, Repr

/-- The result of a call, or a fault. -/
abbrev A (α : Type) := Except Fault α

instance {α : Type} [DecidableEq α] : DecidableEq (A α)
  | .ok x, .ok y => if h : x = y then isTrue (by rw [h]) else isFalse (by intro e; cases e; exact h rfl)
  | .error x, .error y => if h : x = y then isTrue (by rw [h]) else isFalse (by intro e; cases e; exact h rfl)
  | .ok _, .error _ => isFalse (by intro e; cases e)
  | .error _, .ok _ => isFalse (by intro e; cases e)

/-- A result of the plain model in this one. -/
def lift {α : Type} : C α → A α
  | .ok x => .ok x
  | .error e => .error (.ub e)

/-- The argument `void* item`: an object outside the list, an address `o` bytes behind the start of the
    list's buffer, or an address in a buffer that no longer exists. -/
inductive Ptr where
  | ext (x : List Byte)
  | own (o : Nat)
  | dangling
  deriving DecidableEq, Repr

/-- src/sblist/sblist.c:52-56. -/
def sbset (l : SB) (item : Ptr) (pos : Nat) : A (SB × Nat) :=
  if pos ≥ l.count then .ok (l, 0)
  else
    match item with
    | .ext x => lift (Sblist.set l x pos)
    | .dangling => .error .freed
    | .own o =>
      let d := szt (pos * l.itemsize)
      if o < d + l.itemsize ∧ d < o + l.itemsize then .error .overlap
      else lift do
        let x ← rdN l.items o l.itemsize
        let items ← wrN l.items d x
        pure ({ l with items := items }, 1)

/-- src/sblist/sblist.c:58-67: a successful `realloc` ends the life of the old buffer (ISO C 7.22.3.5:
    also if the new one has the same address), so addresses in it become invalid. -/
def sbgrow (a : Alloc) (l : SB) (item : Ptr) : (SB × Nat) × Ptr :=
  (Sblist.grow_if_needed a l,
    match item with
    | .own o => if l.count = l.capa ∧ a.isSome then .dangling else .own o
    | p => p)

/-- src/sblist/sblist.c:69-73. -/
def sbadd (a : Alloc) (l : SB) (item : Ptr) : A (SB × Nat) :=
  let ((l, ok), item) := sbgrow a l item
  if ok = 0 then .ok (l, 0)
  else sbset { l with count := l.count + 1 } item l.count

/-- src/sblist/sblist_insert.c:4-9. -/
def sbinsert (a : Alloc) (l : SB) (item : Ptr) (pos : Nat) : A (SB × Nat) :=
  let ((l, ok), item) := sbgrow a l item
  if ok = 0 then .ok (l, 0)
  else do
    let items ← lift (memmove l.items (szt ((pos + 1) * l.itemsize)) (szt (pos * l.itemsize))
      (szt (sztSub l.count pos * l.itemsize)))
    sbset { l with items := items, count := l.count + 1 } item pos

/-- src/sblist/sblist_insert_sorted.c:4-25: the comparison function reads the item through the pointer;
    `none` is -1. -/
def sbinsert_sorted (a : Alloc) (l : SB) (item : Ptr) (compar : List Byte → List Byte → Int) :
    A (SB × Option Nat) := do
  let x ← match item with
    | .ext x => .ok x
    | .own o => lift (rdN l.items o l.itemsize)
    | .dangling => .error .freed
  let lo ← lift (Sblist.sortedIndex l x compar)
  let (l, ok) ← sbinsert a l item lo
  .ok (l, if ok ≠ 0 then some lo else none)

/-- include/tglist.h:106-114: ITEM is an expression over the list, evaluated in the assignment of
    `tglist_set` (98-99), after the growth and the increment of `count`. -/
def tgadd (isz : Nat) (a : Alloc) (l : TG) (item : TG → C (List Byte)) : C (TG × Nat) :=
  let (l, ok) := Tglist.grow_if_needed isz a l
  if ok = 0 then pure (l, 0)
  else do
    let l := { l with count := l.count + 1 }
    let x ← item l
    Tglist.set isz l x (l.count - 1)

/-- include/tglist.h:125-131: ITEM is evaluated after the items from POS on have been moved; POS (an
    expression over the list as well) is evaluated first. -/
def tginsert (isz : Nat) (a : Alloc) (l : TG) (item : TG → C (List Byte)) (pos : TG → Nat) : C (TG × Nat) :=
  let p := pos l
  let (l, ok) := Tglist.grow_if_needed isz a l
  if ok = 0 then pure (l, 0)
  else do
    let l ← Tglist.memmove_impl isz l (p + 1) (-1)
    let l := { l with count := l.count + 1 }
    let x ← item l
    Tglist.set isz l x p

end Ulz.Alias

import Verif.Spec.Anylist
import Verif.Model.Sblist
import Verif.Model.Tlist
import Verif.Model.Tglist
/-! A program that uses one of the four list types through the calls they have in common, as tests/tlist_test.c does with
two of them. Allocation succeeds. -/
namespace Ulz.Anylist

/-- An insertion's return value as the program sees it. -/
def ok (r : Nat) : Ans := if r ≠ 0 then .done else .failed

/-- tests/tlist_test.c:21, 26, 31, 39, 43: the call for sblist; `f` is what new memory holds. -/
def sbCall (f : Nat → Byte) (l : Sblist.SB) : Call → C (Sblist.SB × Ans)
  | .append x => do let (l, r) ← Sblist.add (some f) l x; pure (l, ok r)
  | .insert x pos => do let (l, r) ← Sblist.insert (some f) l x pos; pure (l, ok r)
  | .delete i => do pure (← Sblist.delete l i, .done)
  | .get i => do pure (l, .item (← Sblist.content l (Sblist.get l i)))
  | .size => pure (l, .size l.count)

/-- The calls for sblist, starting with sblist_new. -/
def sbRun (f : Nat → Byte) (l : Sblist.SB) : List Call → C (Sblist.SB × List Ans)
  | [] => pure (l, [])
  | c :: cs => do
    let (l, a) ← sbCall f l c
    let (l, as) ← sbRun f l cs
    pure (l, a :: as)

/-- tests/tlist_test.c:22, 27, 31, 41, 46: the call for tlist; `mem` is the address malloc returns. -/
def tlCall (mem : Nat) (t : Tlist.TL) : Call → C (Tlist.TL × Ans)
  | .append x => do let (t, r) ← Tlist.tlist_append t x (some mem); pure (t, ok r)
  | .insert x pos => do let (t, r) ← Tlist.tlist_insert t pos x (some mem); pure (t, ok r)
  | .delete i => do let (t, r) ← Tlist.tlist_delete_impl t i false; pure (t, ok r)
  | .get i => do pure (t, .item (Tlist.content t (← Tlist.tlist_get t i)))
  | .size => do pure (t, .size (← Tlist.tlist_getsize t))

/-- The calls for tlist; `mem k` is the address for call `k`. -/
def tlRun (mem : Nat → Nat) : (k : Nat) → (t : Tlist.TL) → List Call → C (Tlist.TL × List Ans)
  | _, t, [] => pure (t, [])
  | k, t, c :: cs => do
    let (t, a) ← tlCall (mem k) t c
    let (t, as) ← tlRun mem (k + 1) t cs
    pure (t, a :: as)

/-- tests/tglist_insert_test.c: the call for tglist. -/
def tgCall (isz : Nat) (f : Nat → Byte) (l : Tglist.TG) : Call → C (Tglist.TG × Ans)
  | .append x => do let (l, r) ← Tglist.add isz (some f) l x; pure (l, ok r)
  | .insert x pos => do let (l, r) ← Tglist.insert isz (some f) l x pos; pure (l, ok r)
  | .delete i => do pure (← Tglist.delete isz l i, .done)
  | .get i => do pure (l, .item (some (← Tglist.get isz l i)))
  | .size => pure (l, .size l.count)

/-- The calls for tglist. -/
def tgRun (isz : Nat) (f : Nat → Byte) (l : Tglist.TG) : List Call → C (Tglist.TG × List Ans)
  | [] => pure (l, [])
  | c :: cs => do
    let (l, a) ← tgCall isz f l c
    let (l, as) ← tgRun isz f l cs
    pure (l, a :: as)

/-- tests/tgilist_insert_test.c: the call for tgilist with an unsigned index type of `w` bytes. -/
def tgiCall (w isz : Nat) (f : Nat → Byte) (l : Tglist.TGI) : Call → C (Tglist.TGI × Ans)
  | .append x => do let (l, r) ← Tglist.iadd w isz (some f) (some f) l x; pure (l, ok r)
  | .insert x pos => do let (l, r) ← Tglist.iinsert w isz (some f) (some f) l x pos; pure (l, ok r)
  | .delete i => do pure (← Tglist.idelete w l i, .done)
  | .get i => do pure (l, .item (some (← Tglist.iget w isz l i)))
  | .size => pure (l, .size l.index.count)

/-- The calls for tgilist. -/
def tgiRun (w isz : Nat) (f : Nat → Byte) (l : Tglist.TGI) : List Call → C (Tglist.TGI × List Ans)
  | [] => pure (l, [])
  | c :: cs => do
    let (l, a) ← tgiCall w isz f l c
    let (l, as) ← tgiRun w isz f l cs
    pure (l, a :: as)

end Ulz.Anylist

import Verif.Model.Sblist
import Verif.Model.Tglist
/-! Sorted insertion with a comparison function that has a state of its own (the `ctx` of sblist_insert_sorted_r, or global variables),
    together with the calls it receives. -/
namespace Ulz.Cost

variable {σ : Type}

/-- src/sblist/sblist_insert_sorted_r.c:10-24, src/sblist/sblist_insert_sorted.c:10-24, include/tglist.h:186-198: the loop; `item` reads
    an item of the list, `compar` is given the state. Result: the position, the state, and the items the new one was compared with. -/
def sortedPos (item : Nat → C (List Byte)) (o : List Byte) (compar : σ → List Byte → List Byte → Int × σ) :
    (fuel hi lo : Nat) → σ → C (Nat × σ × List (List Byte))
  | 0, _, _, _ => .error .hang
  | fuel + 1, hi, lo, s => do
    let c := hi + (lo - hi) / 2
    let p ← item c
    let (r, s) := compar s o p
    if hi = lo then pure (if r > 0 then lo + 1 else lo, s, [p])
    else
      let (hi, lo) :=
        if r < 0 then (hi, if c ≠ 0 then c - 1 else 0)
        else if r > 0 then (c + 1, lo)
        else (c, c)
      let hi := if hi > lo then lo else hi
      let (q, s, log) ← sortedPos item o compar fuel hi lo s
      pure (q, s, p :: log)

/-- src/sblist/sblist_insert_sorted_r.c:6-9, include/tglist.h:180-185: `count` is the number of items. -/
def sortedIndex (count : Nat) (item : Nat → C (List Byte)) (o : List Byte) (compar : σ → List Byte → List Byte → Int × σ) (s : σ) :
    C (Nat × σ × List (List Byte)) :=
  if count = 0 then pure (0, s, []) else sortedPos item o compar (count + 1) 0 (count - 1) s

/-- src/sblist/sblist_insert_sorted_r.c:4-25 (and sblist_insert_sorted.c, whose comparison may use global variables). -/
def sblist_insert_sorted_r (a : Alloc) (l : Sblist.SB) (o : List Byte) (compar : σ → List Byte → List Byte → Int × σ) (s : σ) :
    C (Sblist.SB × Option Nat × σ × List (List Byte)) := do
  let (lo, s, log) ← sortedIndex l.count (fun i => Sblist.deref l (Sblist.get l i)) o compar s
  let (l, ok) ← Sblist.insert a l o lo
  if ok ≠ 0 then pure (l, some lo, s, log) else pure (l, none, s, log)

/-- include/tglist.h:151-153, 179-206. -/
def tglist_insert_sorted (isz : Nat) (a : Alloc) (l : Tglist.TG) (o : List Byte) (compar : σ → List Byte → List Byte → Int × σ) (s : σ) :
    C (Tglist.TG × Option Nat × σ × List (List Byte)) := do
  let (lo, s, log) ← sortedIndex l.count (Tglist.get isz l) o compar s
  let (l, ok) ← Tglist.insert isz a l o lo
  if ok ≠ 0 then pure (l, some lo, s, log) else pure (l, none, s, log)

/-- src/sblist/sblist_bsearch_r.c:4-13, src/sblist/sblist_bsearch.c:4-13: the loop; `none` is -1. Result: also the state and the items compared. -/
def bsearchLoop (item : Nat → C (List Byte)) (o : List Byte) (compar : σ → List Byte → List Byte → Int × σ) (base nel : Nat) (s : σ) :
    C (Option Nat × σ × List (List Byte)) :=
  if _h : nel > 0 then do
    let x := base + nel / 2
    let p ← item x
    let (c, s) := compar s o p
    if c < 0 then do
      let (r, s, log) ← bsearchLoop item o compar base (nel / 2) s
      pure (r, s, p :: log)
    else if c > 0 then do
      let (r, s, log) ← bsearchLoop item o compar (x + 1) (nel - (nel / 2 + 1)) s
      pure (r, s, p :: log)
    else pure (some x, s, [p])
  else pure (none, s, [])
  termination_by nel
  decreasing_by all_goals omega

/-- src/sblist/sblist_bsearch_r.c:2-14, src/sblist/sblist_bsearch.c:2-14. -/
def sblist_bsearch_r (l : Sblist.SB) (o : List Byte) (compar : σ → List Byte → List Byte → Int × σ) (s : σ) :
    C (Option Nat × σ × List (List Byte)) :=
  bsearchLoop (fun i => Sblist.deref l (Sblist.get l i)) o compar 0 l.count s

end Ulz.Cost

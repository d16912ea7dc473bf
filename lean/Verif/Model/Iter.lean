import Verif.Model.Tglist
/-! Model of the loop macros of include/sblist.h, include/stringlist.h and include/tglist.h, with a loop body that may change
    the list and the loop variable. -/
namespace Ulz.Iter
open Ulz.Sblist (SB)
open Ulz.Tglist (TG)

/-- How one run of a loop body ends: at its end or by `continue` (`go`), or by `break` (`brk`). With the list, the loop
    variable and the client's other variables afterwards. -/
inductive Flow (L I σ : Type) where
  | go (l : L) (i : I) (s : σ)
  | brk (l : L) (i : I) (s : σ)

/-- List, loop variable, `PTR` (an offset into the list's buffer, `none` for NULL) and the client's variables after a loop. -/
structure Out (I σ : Type) where
  l : SB
  i : I
  ptr : Option Nat
  s : σ

/-- include/sblist.h:119-125, and 133 by line 119: `for(ITER = 0; (PTR = sblist_get(LIST, ITER)), ITER < sblist_getsize(LIST); ITER++)`
    from a value of `ITER` on; running out of `fuel` is `hang`. -/
def iter {σ : Type} (body : SB → Nat → Option Nat → σ → C (Flow SB Nat σ)) : (fuel : Nat) → SB → Nat → σ → C (Out Nat σ)
  | 0, _, _, _ => .error .hang
  | fuel + 1, l, i, s => do
    let p := Sblist.get l i
    if i < l.count then
      match ← body l i p s with
      | .go l i s => iter body fuel l (szt (i + 1)) s
      | .brk l i s => pure ⟨l, i, p, s⟩
    else pure ⟨l, i, p, s⟩

/-- `(ssize_t) n`. -/
def ssize (n : Nat) : Int := (BitVec.ofNat 64 n).toInt

/-- include/sblist.h:129-130: the same with a signed loop variable, which `sblist_get` receives as a `size_t`. -/
def iters {σ : Type} (body : SB → Int → Option Nat → σ → C (Flow SB Int σ)) : (fuel : Nat) → SB → Int → σ → C (Out Int σ)
  | 0, _, _, _ => .error .hang
  | fuel + 1, l, i, s => do
    let p := Sblist.get l (i % 2^64).toNat
    if i < ssize l.count then
      match ← body l i p s with
      | .go l i s => if i = 2^63 - 1 then .error .overflow else iters body fuel l (i + 1) s
      | .brk l i s => pure ⟨l, i, p, s⟩
    else pure ⟨l, i, p, s⟩

/-- include/tglist.h:103: `tglist_foreach` with a loop variable of type `size_t` (include/stringlist.h:16 is the same on an
    sblist). Result: list, loop variable and the client's variables. -/
def foreach {σ : Type} (body : TG → Nat → σ → C (Flow TG Nat σ)) : (fuel : Nat) → TG → Nat → σ → C (TG × Nat × σ)
  | 0, _, _, _ => .error .hang
  | fuel + 1, l, i, s => do
    if i < l.count then
      match ← body l i s with
      | .go l i s => foreach body fuel l (szt (i + 1)) s
      | .brk l i s => pure (l, i, s)
    else pure (l, i, s)

/-! ### Loop bodies

Clients of the macros. `p`, `q` are tests of an item, `f` is how the client's variables change. -/

/-- `{ if(q(*PTR)) break; f(*PTR); }` -/
def search {σ : Type} (q : List Byte → Bool) (f : σ → List Byte → σ) (l : SB) (i : Nat) (ptr : Option Nat) (s : σ) :
    C (Flow SB Nat σ) := do
  let x ← Sblist.deref l ptr
  if q x then pure (.brk l i s) else pure (.go l i (f s x))

/-- `{ f(*PTR); if(p(*PTR)) { sblist_delete(LIST, ITER); ITER--; } }` with an unsigned ITER. -/
def removeU {σ : Type} (p : List Byte → Bool) (f : σ → List Byte → σ) (l : SB) (i : Nat) (ptr : Option Nat) (s : σ) :
    C (Flow SB Nat σ) := do
  let x ← Sblist.deref l ptr
  if p x then do pure (.go (← Sblist.delete l i) (sztSub i 1) (f s x)) else pure (.go l i (f s x))

/-- The same with a signed ITER, as advised in include/sblist.h:127-128. -/
def removeS {σ : Type} (p : List Byte → Bool) (f : σ → List Byte → σ) (l : SB) (i : Int) (ptr : Option Nat) (s : σ) :
    C (Flow SB Int σ) := do
  let x ← Sblist.deref l ptr
  if p x then do
    let l ← Sblist.delete l (i % 2^64).toNat
    if i = -2^63 then .error .overflow else pure (.go l (i - 1) (f s x))
  else pure (.go l i (f s x))

/-- The same without `ITER--`. -/
def removeN {σ : Type} (p : List Byte → Bool) (f : σ → List Byte → σ) (l : SB) (i : Nat) (ptr : Option Nat) (s : σ) :
    C (Flow SB Nat σ) := do
  let x ← Sblist.deref l ptr
  if p x then do pure (.go (← Sblist.delete l i) i (f s x)) else pure (.go l i (f s x))

/-- `sblist_add` of several items; `mem n` is what the allocator does for a list of `n` items. The flag tells whether all were added. -/
def addAll (mem : Nat → Alloc) (l : SB) : List (List Byte) → C (SB × Bool)
  | [] => pure (l, true)
  | y :: ys => do
    let (l, ok) ← Sblist.add (mem l.count) l y
    if ok = 0 then pure (l, false) else addAll mem l ys

/-- `{ f(*PTR); add the items g(*PTR) to the list, leave the loop if that fails }`: a work list. -/
def extend {σ : Type} (mem : Nat → Alloc) (g : List Byte → List (List Byte)) (f : σ → List Byte → σ) (l : SB) (i : Nat)
    (ptr : Option Nat) (s : σ) : C (Flow SB Nat σ) := do
  let x ← Sblist.deref l ptr
  let (l, ok) ← addAll mem l (g x)
  if ok then pure (.go l i (f s x)) else pure (.brk l i (f s x))

/-- `{ f(item); if(p(item)) { tglist_delete(LIST, ITER); ITER--; } }` -/
def removeT {σ : Type} (isz : Nat) (p : List Byte → Bool) (f : σ → List Byte → σ) (l : TG) (i : Nat) (s : σ) :
    C (Flow TG Nat σ) := do
  let x ← Tglist.get isz l i
  if p x then do pure (.go (← Tglist.delete isz l i) (sztSub i 1) (f s x)) else pure (.go l i (f s x))

end Ulz.Iter

import Verif.Model.Sblist
/-! Model of the header-only lists tglist (include/tglist.h) and tgilist (include/tgilist.h), on the
bytes of their buffers. `isz` is `sizeof(TYPE)`; a value of TYPE is its `isz` bytes. -/
namespace Ulz.Tglist

/-- include/tglist.h:50-59 (the scratch union `tmp` is not observable and left out). -/
structure TG where
  count : Nat
  capa : Nat
  items : List Byte
  deriving DecidableEq, Repr

/-- include/tglist.h:72, 79: all fields zero. -/
def init : TG := ⟨0, 0, []⟩

/-- include/tglist.h:159-170. -/
def grow_if_needed (isz : Nat) (a : Alloc) (l : TG) : TG × Nat :=
  if l.count = l.capa then
    let newsz := if l.capa = 0 then 4 else szt (l.capa * 2)
    match realloc a l.items (szt (newsz * isz)) with
    | none => (l, 0)
    | some t => (⟨l.count, newsz, t⟩, 1)
  else (l, 1)

/-- include/tglist.h:172-177; `diff` is the signed `pos2diff`, converted to `size_t` where it is used. -/
def memmove_impl (isz : Nat) (l : TG) (pos1 : Nat) (diff : Int) : C TG := do
  let d := (diff % 2^64).toNat
  let dst := szt (pos1 * isz)
  let src := szt (dst + szt (isz * d))
  let items ← memmove l.items dst src (szt (sztSub l.count (szt (pos1 + d)) * isz))
  pure { l with items := items }

/-- include/tglist.h:96: the value at `items[pos]`. -/
def get (isz : Nat) (l : TG) (pos : Nat) : C (List Byte) := rdN l.items (szt (pos * isz)) isz

/-- include/tglist.h:98-99. -/
def set (isz : Nat) (l : TG) (item : List Byte) (pos : Nat) : C (TG × Nat) := do
  let x ← rdN item 0 isz
  let items ← wrN l.items (szt (pos * isz)) x
  pure ({ l with items := items }, 1)

/-- include/tglist.h:106-114. -/
def add (isz : Nat) (a : Alloc) (l : TG) (item : List Byte) : C (TG × Nat) :=
  let (l, ok) := grow_if_needed isz a l
  if ok = 0 then pure (l, 0)
  else
    let l := { l with count := l.count + 1 }
    set isz l item (l.count - 1)

/-- include/tglist.h:120-122. -/
def delete (isz : Nat) (l : TG) (pos : Nat) : C TG := do
  let l ← memmove_impl isz l pos 1
  pure { l with count := sztSub l.count 1 }

/-- include/tglist.h:125-131. -/
def insert (isz : Nat) (a : Alloc) (l : TG) (item : List Byte) (pos : Nat) : C (TG × Nat) :=
  let (l, ok) := grow_if_needed isz a l
  if ok = 0 then pure (l, 0)
  else do
    let l ← memmove_impl isz l (pos + 1) (-1)
    set isz { l with count := l.count + 1 } item pos

/-- include/tglist.h:186-198: the loop; running out of `fuel` is `hang`. -/
def sortedPos (isz : Nat) (l : TG) (o : List Byte) (compar : List Byte → List Byte → Int) :
    (fuel hi lo : Nat) → C Nat
  | 0, _, _ => .error .hang
  | fuel + 1, hi, lo => do
    let c := hi + (lo - hi) / 2
    let p ← get isz l c
    let r := compar o p
    if hi = lo then
      pure (if r > 0 then lo + 1 else lo)
    else
      let (hi, lo) :=
        if r < 0 then (hi, if c ≠ 0 then c - 1 else 0)
        else if r > 0 then (c + 1, lo)
        else (c, c)
      let hi := if hi > lo then lo else hi
      sortedPos isz l o compar fuel hi lo

/-- include/tglist.h:179-199. -/
def sortedIndex (isz : Nat) (l : TG) (o : List Byte) (compar : List Byte → List Byte → Int) : C Nat :=
  if l.count = 0 then pure 0 else sortedPos isz l o compar (l.count + 1) 0 (l.count - 1)

/-- include/tglist.h:151-153, 201-206 (`tglist_insert_memcpy`, 134-139, has the effect of
    `tglist_insert`); `none` is -1. -/
def insert_sorted (isz : Nat) (a : Alloc) (l : TG) (o : List Byte) (compar : List Byte → List Byte → Int) :
    C (TG × Option Nat) := do
  let lo ← sortedIndex isz l o compar
  let (l, ok) ← insert isz a l o lo
  if ok ≠ 0 then pure (l, some lo) else pure (l, none)

/-- Little-endian value of bytes (x86). -/
def leVal : List Byte → Nat
  | [] => 0
  | b :: bs => b.toNat + 256 * leVal bs

/-- The `w` little-endian bytes of `n`. -/
def leBytes : (w : Nat) → (n : Nat) → List Byte
  | 0, _ => []
  | w + 1, n => BitVec.ofNat 8 n :: leBytes w (n / 256)

/-- `free(p)` with `free(NULL)` doing nothing; `live` are the allocated addresses. -/
def hfree (live : List Nat) (p : Nat) : C (List Nat) :=
  if p = 0 then pure live else if p ∈ live then pure (live.erase p) else .error .badFree

/-- include/tglist.h:91-93: the loop, `n` the number of remaining items. -/
def freeValuesLoop (isz : Nat) (l : TG) : (n : Nat) → (live : List Nat) → C (TG × List Nat)
  | 0, live => pure (l, live)
  | n + 1, live => do
    let l := { l with count := n }
    let p ← rdN l.items (szt (n * isz)) 8
    let live ← hfree live (leVal p)
    freeValuesLoop isz l n live

/-- include/tglist.h:90-93. -/
def free_values (isz : Nat) (l : TG) (live : List Nat) : C (TG × List Nat) :=
  if isz = 8 then freeValuesLoop isz l l.count live else pure (l, live)

/-! ### Operation sequences -/

inductive Op where
  | add (x : List Byte) (a : Alloc)
  | set (x : List Byte) (pos : Nat)
  | get (i : Nat)
  | insert (x : List Byte) (pos : Nat) (a : Alloc)
  | delete (i : Nat)
  | getsize

/-- What a call returned. -/
inductive Res where
  | int (n : Nat)
  | item (x : List Byte)
  | unit
  deriving DecidableEq

/-- One call: the list and what it returned. -/
def step (isz : Nat) (l : TG) : Op → C (TG × Res)
  | .add x a => do let (l, r) ← add isz a l x; pure (l, .int r)
  | .set x pos => do let (l, r) ← set isz l x pos; pure (l, .int r)
  | .get i => do pure (l, .item (← get isz l i))
  | .insert x pos a => do let (l, r) ← insert isz a l x pos; pure (l, .int r)
  | .delete i => do pure (← delete isz l i, .unit)
  | .getsize => pure (l, .int l.count)

/-- A history of calls. -/
def run (isz : Nat) (l : TG) : List Op → C (TG × List Res)
  | [] => pure (l, [])
  | op :: ops => do
    let (l, r) ← step isz l op
    let (l, rs) ← run isz l ops
    pure (l, r :: rs)

/-! ### tgilist -/

/-- include/tgilist.h:30-34. -/
structure TGI where
  index : TG
  items : TG
  deriving DecidableEq, Repr

/-- include/tgilist.h:43, 49. -/
def iinit : TGI := ⟨init, init⟩

/-- include/tgilist.h:57: index value at `pos`; `w` is sizeof(IDX_TYPE), an unsigned type. -/
def iidx (w : Nat) (l : TGI) (pos : Nat) : C Nat := do
  pure (leVal (← get w l.index pos))

/-- include/tgilist.h:57. -/
def iget (w isz : Nat) (l : TGI) (pos : Nat) : C (List Byte) := do
  get isz l.items (← iidx w l pos)

/-- include/tgilist.h:59. -/
def iset (w isz : Nat) (l : TGI) (item : List Byte) (pos : Nat) : C (TGI × Nat) := do
  let i ← iidx w l pos
  let (t, r) ← set isz l.items item i
  pure ({ l with items := t }, r)

/-- include/tgilist.h:61-67; `a1`, `a2` are the allocations of the two arrays. -/
def iadd (w isz : Nat) (a1 a2 : Alloc) (l : TGI) (item : List Byte) : C (TGI × Nat) := do
  let (ix, ok) ← add w a1 l.index (leBytes w l.items.count)
  if ok = 0 then pure ({ l with index := ix }, 0)
  else do
    let (t, ok) ← add isz a2 l.items item
    if ok ≠ 0 then pure (⟨ix, t⟩, 1)
    else do
      let ix ← delete w ix (ix.count - 1)
      pure (⟨ix, t⟩, 0)

/-- include/tgilist.h:70-71. -/
def idelete (w : Nat) (l : TGI) (pos : Nat) : C TGI := do
  pure { l with index := ← delete w l.index pos }

/-- include/tgilist.h:73-79. -/
def iinsert (w isz : Nat) (a1 a2 : Alloc) (l : TGI) (item : List Byte) (pos : Nat) : C (TGI × Nat) := do
  let (t, ok) ← add isz a2 l.items item
  if ok = 0 then pure ({ l with items := t }, 0)
  else do
    let (ix, ok) ← insert w a1 l.index (leBytes w (t.count - 1)) pos
    if ok ≠ 0 then pure (⟨ix, t⟩, 1)
    else pure (⟨ix, { t with count := t.count - 1 }⟩, 0)

/-- A call on a tgilist. -/
inductive IOp where
  | add (x : List Byte) (a1 a2 : Alloc)
  | set (x : List Byte) (pos : Nat)
  | get (i : Nat)
  | insert (x : List Byte) (pos : Nat) (a1 a2 : Alloc)
  | delete (i : Nat)
  | getsize

/-- One call on a tgilist. -/
def istep (w isz : Nat) (l : TGI) : IOp → C (TGI × Res)
  | .add x a1 a2 => do let (l, r) ← iadd w isz a1 a2 l x; pure (l, .int r)
  | .set x pos => do let (l, r) ← iset w isz l x pos; pure (l, .int r)
  | .get i => do pure (l, .item (← iget w isz l i))
  | .insert x pos a1 a2 => do let (l, r) ← iinsert w isz a1 a2 l x pos; pure (l, .int r)
  | .delete i => do pure (← idelete w l i, .unit)
  | .getsize => pure (l, .int l.index.count)

/-- A history of calls on a tgilist. -/
def irun (w isz : Nat) (l : TGI) : List IOp → C (TGI × List Res)
  | [] => pure (l, [])
  | op :: ops => do
    let (l, r) ← istep w isz l op
    let (l, rs) ← irun w isz l ops
    pure (l, r :: rs)

end Ulz.Tglist

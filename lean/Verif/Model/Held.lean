import Verif.Model.Alias
/-! Model of what becomes of pointers to items that the caller keeps while calling on. The lists are those of Model/Sblist.lean and
Model/Tglist.lean; beside them runs a count of the buffers the list has had, so that a pointer says which buffer it points into. -/
namespace Ulz.Held
open Ulz.Sblist (SB)
open Ulz.Tglist (TG)
open Ulz.Alias (A Fault lift)

/-- A `void*` as src/sblist/sblist.c:43-50 computes it, an address inside a list's buffer: which of the buffers the list has had, and how far behind its start. -/
structure Ptr where
  buf : Nat
  off : Nat
  deriving DecidableEq, Repr

/-- include/sblist.h:24-30, and how often `realloc` has given the list another buffer. -/
structure HSB where
  l : SB
  buf : Nat
  deriving DecidableEq, Repr

/-- Whether the call makes `realloc` succeed: src/sblist/sblist.c:58-67, reached from src/sblist/sblist.c:69-73 (add),
    src/sblist/sblist_addi.c:3-8 and src/sblist/sblist_insert.c:4-9. The other calls do not allocate. -/
def sbReallocs (l : SB) : Sblist.Op → Bool
  | .add _ a | .addi _ a | .insert _ _ a => l.count = l.capa && a.isSome
  | _ => false

/-- One call (src/sblist/sblist.c:47-73, sblist_addi.c, sblist_insert.c, sblist_delete.c, sblist_pop.c). A successful `realloc` ends the
    life of the old buffer, also if the new one is at the same address (ISO C 7.22.3.5). -/
def sbstep (s : HSB) (op : Sblist.Op) : C (HSB × Sblist.Res) := do
  let (l, r) ← Sblist.step s.l op
  pure (⟨l, if sbReallocs s.l op then s.buf + 1 else s.buf⟩, r)

/-- A history of such calls (src/sblist, as above). -/
def sbrun (s : HSB) : List Sblist.Op → C (HSB × List Sblist.Res)
  | [] => pure (s, [])
  | op :: ops => do
    let (s, r) ← sbstep s op
    let (s, rs) ← sbrun s ops
    pure (s, r :: rs)

/-- src/sblist/sblist.c:47-50: the pointer `sblist_get` returns, `none` for NULL. -/
def sbget (s : HSB) (i : Nat) : Option Ptr := (Sblist.get s.l i).map fun o => ⟨s.buf, o⟩

/-- src/sblist/sblist_pop.c:2-10: the pointer `sblist_pop` returns. -/
def sbpop (s : HSB) : C (HSB × Option Ptr) := do
  let (l, o) ← Sblist.pop s.l
  pure (⟨l, s.buf⟩, o.map fun o => ⟨s.buf, o⟩)

/-- The caller reads an item's size of bytes through a pointer it holds (the result of src/sblist/sblist.c:47-50). -/
def sbread (s : HSB) (p : Ptr) : A (List Byte) :=
  if p.buf ≠ s.buf then .error .freed else lift (rdN s.l.items p.off s.l.itemsize)

/-- The caller writes an item through a pointer it holds (the result of src/sblist/sblist.c:47-50). -/
def sbwrite (s : HSB) (p : Ptr) (x : List Byte) : A HSB :=
  if p.buf ≠ s.buf then .error .freed
  else lift do
    let items ← wrN s.l.items p.off x
    pure { s with l := { s.l with items := items } }

/-- include/tglist.h:50-59, and how often `realloc` has given the list another buffer. -/
structure HTG where
  l : TG
  buf : Nat
  deriving DecidableEq, Repr

/-- Whether the call makes `realloc` succeed: include/tglist.h:159-170, reached from `tglist_add` (106-114) and `tglist_insert` (125-131). -/
def tgReallocs (l : TG) : Tglist.Op → Bool
  | .add _ a | .insert _ _ a => l.count = l.capa && a.isSome
  | _ => false

/-- One call (include/tglist.h:62-131). -/
def tgstep (isz : Nat) (s : HTG) (op : Tglist.Op) : C (HTG × Tglist.Res) := do
  let (l, r) ← Tglist.step isz s.l op
  pure (⟨l, if tgReallocs s.l op then s.buf + 1 else s.buf⟩, r)

/-- A history of such calls (include/tglist.h:62-131). -/
def tgrun (isz : Nat) (s : HTG) : List Tglist.Op → C (HTG × List Tglist.Res)
  | [] => pure (s, [])
  | op :: ops => do
    let (s, r) ← tgstep isz s op
    let (s, rs) ← tgrun isz s ops
    pure (s, r :: rs)

/-- include/tglist.h:96: the pointer `&tglist_get(l, i)`. -/
def tgptr (isz : Nat) (s : HTG) (i : Nat) : Ptr := ⟨s.buf, szt (i * isz)⟩

/-- The caller reads an item through a pointer it holds (taken as in include/tglist.h:96). -/
def tgread (isz : Nat) (s : HTG) (p : Ptr) : A (List Byte) :=
  if p.buf ≠ s.buf then .error .freed else lift (rdN s.l.items p.off isz)

/-- The caller writes an item through a pointer it holds (taken as in include/tglist.h:96). -/
def tgwrite (s : HTG) (p : Ptr) (x : List Byte) : A HTG :=
  if p.buf ≠ s.buf then .error .freed
  else lift do
    let items ← wrN s.l.items p.off x
    pure { s with l := { s.l with items := items } }

end Ulz.Held

import Verif.Model.Stringptr
/-! Model of the stringptrs that are one allocated block (include/stringptr.h:24-25, src/stringptr/stringptr_new.c): the
    16 bytes of the structure, then the text. Unlike in Stringptr, a pointer is a block and an offset into it, so that a
    pointer into a block that was given back is seen as such. Blocks have numbers that are not used again. Only blocks made
    by `stringptr_new` or `stringptr_grow` exist. -/
namespace Ulz.Spgrow

/-- A pointer: the number of a block and an offset into it. -/
structure Ptr where
  blk : Nat
  off : Nat
  deriving DecidableEq, Repr

/-- include/stringptr_struct.h:6-9: the members at the beginning of a block. -/
structure Hdr where
  ptr : Ptr
  size : Nat
  deriving DecidableEq, Repr

/-- A block: the structure (`none` once any of its 16 bytes were cut off) and the bytes behind it. -/
structure Obj where
  hd : Option Hdr
  text : List Byte
  deriving DecidableEq, Repr

/-- The allocated blocks and the number the next one gets. -/
structure Heap where
  objs : Nat → Option Obj
  next : Nat

/-- The heap with block `p` replaced. -/
def Heap.put (h : Heap) (p : Nat) (o : Option Obj) : Heap := { h with objs := fun q => if q = p then o else h.objs q }

/-- Reading the members of `*p`: the block has to be allocated and to contain them. -/
def hdr (h : Heap) (p : Nat) : C Hdr :=
  match h.objs p with
  | none => .error .oobRead
  | some o => match o.hd with
    | none => .error .oobRead
    | some d => pure d

/-- Writing the members of `*p`. -/
def setHdr (h : Heap) (p : Nat) (d : Hdr) : C Heap :=
  match h.objs p with
  | none => .error .oobWrite
  | some o => match o.hd with
    | none => .error .oobWrite
    | some _ => pure (h.put p (some { o with hd := some d }))

/-- Reading `n` bytes at `q`, which lies behind the members of a block. No bytes can be read through any pointer. -/
def load (h : Heap) (q : Ptr) (n : Nat) : C (List Byte) :=
  if n = 0 then pure []
  else match h.objs q.blk with
    | none => .error .oobRead
    | some o => if q.off < 16 then .error .oobRead else rdN o.text (q.off - 16) n

/-- Writing one byte at `q`. -/
def store (h : Heap) (q : Ptr) (c : Byte) : C Heap :=
  match h.objs q.blk with
  | none => .error .oobWrite
  | some o => if q.off < 16 then .error .oobWrite else do
    let t ← wr o.text (q.off - 16) c
    pure (h.put q.blk (some { o with text := t }))

/-- src/stringptr/stringptr_new.c:5-12. `a` is what malloc does; the result is the block, `none` for NULL. -/
def new (a : Alloc) (h : Heap) (size : Nat) : C (Heap × Option Nat) :=
  match a with
  | none => pure (h, none)
  | some f => do
    let n := szt (16 + size + 1)
    if n < 16 then .error .oobWrite
    else do
      let p := h.next
      let d : Hdr := ⟨⟨p, 16⟩, size⟩
      let h : Heap := { (h.put p (some ⟨some d, (List.range (n - 16)).map f⟩)) with next := p + 1 }
      let h ← store h ⟨p, 16 + size⟩ 0
      pure (h, some p)

/-- How a call of realloc ends: NULL, the block has got its new size where it was, or it was moved. New bytes are given by
    the function. -/
inductive Re where
  | null
  | same (f : Nat → Byte)
  | moved (f : Nat → Byte)

/-- What a block of which `b` bytes are kept or added becomes. -/
def resize (o : Obj) (b : Nat) (f : Nat → Byte) : Obj :=
  ⟨if b < 16 then none else o.hd, o.text.take (b - 16) ++ (List.range (b - 16 - o.text.length)).map f⟩

/-- include/stringptr.h:24: `stringptr_grow(p, b)`, that is `realloc(p, b)`: the resulting pointer, `none` for NULL. `b` is
    not 0. -/
def grow (h : Heap) (p b : Nat) (r : Re) : C (Heap × Option Nat) :=
  match h.objs p with
  | none => .error .badFree
  | some o => match r with
    | .null => pure (h, none)
    | .same f => pure (h.put p (some (resize o b f)), some p)
    | .moved f => pure ({ ((h.put p none).put h.next (some (resize o b f))) with next := h.next + 1 }, some h.next)

/-- include/stringptr.h:25: `stringptr_free(v)`; the variable's value before (`none` is NULL); it is NULL afterwards. -/
def free (h : Heap) (v : Option Nat) : C (Heap × Option Nat) :=
  match v with
  | none => pure (h, none)
  | some p => match h.objs p with
    | none => .error .badFree
    | some _ => pure (h.put p none, none)

/-- The text of `*p` as all functions of src/stringptr read it: `size` bytes at `ptr`. -/
def text (h : Heap) (p : Nat) : C (List Byte) := do
  let d ← hdr h p
  load h d.ptr d.size

/-- `p->ptr[i] = c` in a program. -/
def setc (h : Heap) (p i : Nat) (c : Byte) : C Heap := do
  let d ← hdr h p
  store h { d.ptr with off := d.ptr.off + i } c

/-- `p->ptr = (char*) p + sizeof(stringptr)` in a program. -/
def rebase (h : Heap) (p : Nat) : C Heap := do
  let d ← hdr h p
  setHdr h p { d with ptr := ⟨p, 16⟩ }

/-- `p->size = n` in a program. -/
def setsize (h : Heap) (p n : Nat) : C Heap := do
  let d ← hdr h p
  setHdr h p { d with size := n }

/-- src/stringptr/stringptr_shiftright.c:3-11. -/
def shiftright (h : Heap) (p count : Nat) : C (Heap × Nat) := do
  let d ← hdr h p
  if d.size ≥ count then do
    let h ← setHdr h p ⟨{ d.ptr with off := d.ptr.off + count }, d.size - count⟩
    pure (h, 1)
  else pure (h, 0)

/-- src/stringptr/stringptr_shiftleft.c:3-11. -/
def shiftleft (h : Heap) (p count : Nat) : C (Heap × Nat) := do
  let d ← hdr h p
  if d.size ≥ count then do
    let h ← setHdr h p { d with size := d.size - count }
    let h ← store h { d.ptr with off := d.ptr.off + (d.size - count) } 0
    pure (h, 1)
  else pure (h, 0)

/-- Writing a text `s` from `p->ptr[i]` on. -/
def fill (h : Heap) (p : Nat) : (i : Nat) → List Byte → C Heap
  | _, [] => pure h
  | i, c :: s => do
    let h ← setc h p i c
    fill h p (i + 1) s

/-- What a program does with one stringptr: `t = stringptr_grow(s, b); if(t) s = t;`, shifting, or writing a byte. -/
inductive Op where
  | grow (b : Nat) (r : Re)
  | shiftright (n : Nat)
  | shiftleft (n : Nat)
  | setc (i : Nat) (c : Byte)

/-- One of these; the heap and the value of the variable afterwards. -/
def step (h : Heap) (p : Nat) : Op → C (Heap × Nat)
  | .grow b r => do
    let (h, q) ← grow h p b r
    pure (h, q.getD p)
  | .shiftright n => do
    let (h, _) ← shiftright h p n
    pure (h, p)
  | .shiftleft n => do
    let (h, _) ← shiftleft h p n
    pure (h, p)
  | .setc i c => do
    let h ← setc h p i c
    pure (h, p)

/-- A history of them. -/
def run (h : Heap) (p : Nat) : List Op → C (Heap × Nat)
  | [] => pure (h, p)
  | op :: ops => do
    let (h, p) ← step h p op
    run h p ops

/-- A program that makes a string of the text `s`. -/
def make (f : Nat → Byte) (h : Heap) (s : List Byte) : C (Heap × Nat) := do
  let (h, p) ← new (some f) h s.length
  match p with
  | none => .error .nullDeref
  | some p => do pure (← fill h p 0 s, p)

end Ulz.Spgrow

import Verif.Model.Sblist
import Verif.Model.Hex
/-! Model of stringptr (src/stringptr) and of stringptrlist (src/stringptrlist). -/
namespace Ulz.Stringptr

/-- include/stringptr_struct.h. `buf` is the memory from `ptr` to the end of the object it points into. A
    NULL `ptr` with size 0 is the empty buffer. -/
structure SP where
  buf : List Byte
  size : Nat
  deriving DecidableEq, Repr

/-- ISO C `!memcmp(a + i, b + j, n)`: both ranges have to be readable. -/
def memEq (a : List Byte) (i : Nat) (b : List Byte) (j n : Nat) : C Bool := do
  let x ← rdN a i n
  let y ← rdN b j n
  pure (decide (x = y))

/-- ISO C `malloc(n)`: an object of `n` arbitrary bytes, or NULL. -/
def malloc (a : Alloc) (n : Nat) : Option (List Byte) := realloc a [] n

/-- src/stringptr/stringptr_eq.c:3-7. -/
def eq : Option SP → Option SP → C Bool
  | none, none => pure true
  | some _, none => pure false
  | none, some _ => pure false
  | some a, some b => if a.size = b.size then memEq a.buf 0 b.buf 0 a.size else pure false

/-- src/stringptr/stringptr_here.c:4-10. -/
def here (h : SP) (bufpos : Nat) (n : SP) : C Bool :=
  if n.size ≤ sztSub h.size bufpos then memEq n.buf 0 h.buf bufpos n.size else pure false

/-- src/stringptr/stringptr_contains.c:6-11; running out of `fuel` is `hang`. -/
def containsLoop (h n : SP) : (fuel bufpos : Nat) → C Bool
  | 0, _ => .error .hang
  | fuel + 1, bufpos => do
    if n.size ≤ sztSub h.size bufpos then
      if ← memEq n.buf 0 h.buf bufpos n.size then pure true else containsLoop h n fuel (bufpos + 1)
    else pure false

/-- src/stringptr/stringptr_contains.c:4-12. -/
def contains (h n : SP) : C Bool := containsLoop h n (h.size + 2) 0

/-- src/stringptr/stringptr_hash.c:9-10, with `w` the width of `uint_fast32_t`. -/
def hashStep (w : Nat) (h : BitVec w) (c : Byte) : BitVec w :=
  let h := 16 * h + c.setWidth w
  h ^^^ ((h >>> 24) &&& 0xf0)

/-- src/stringptr/stringptr_hash.c:4-14. The loop reads bytes 0..size-1 in order. -/
def hash (w : Nat) (s : SP) : C (BitVec 32) := do
  let bs ← rdN s.buf 0 s.size
  let h := bs.foldl (hashStep w) 0
  pure ((h &&& 0xfffffff).setWidth 32)

/-- src/stringptr/stringptr_shiftright.c:3-11. -/
def shiftright (s : SP) (count : Nat) : SP × Nat :=
  if s.size ≥ count then (⟨s.buf.drop count, s.size - count⟩, 1) else (s, 0)

/-- src/stringptr/stringptr_shiftleft.c:3-11. -/
def shiftleft (s : SP) (count : Nat) : C (SP × Nat) :=
  if s.size ≥ count then do
    let buf ← wr s.buf (s.size - count) 0
    pure (⟨buf, s.size - count⟩, 1)
  else pure (s, 0)

/-- src/stringptr/stringptr_chomp.c:3-5. -/
def islb (c : Byte) : Bool := c = ch '\n' || c = ch '\r'

/-- src/stringptr/stringptr_chomp.c:11: the loop; `res` the number of removed bytes. -/
def chompLoop : (fuel : Nat) → SP → (res : Nat) → C (SP × Nat)
  | 0, _, _ => .error .hang
  | fuel + 1, s, res => do
    if s.size = 0 then pure (s, res)
    else if !islb (← rd s.buf (s.size - 1)) then pure (s, res)
    else do
      let (s, r) ← shiftleft s 1
      if r = 0 then pure (s, res) else chompLoop fuel s (res + 1)

/-- src/stringptr/stringptr_chomp.c:8-13 (the NULL case returns 0). -/
def chomp (s : SP) : C (SP × Nat) := chompLoop (s.size + 1) s 0

/-- src/stringptr/stringptr_rchr.c:7-10: the loop, `i` bytes left to look at; `char` is signed. -/
def rchrLoop (s : SP) (needle : Int) : (i : Nat) → C (Option Nat)
  | 0 => pure none
  | i + 1 => do
    if (← rd s.buf i).toInt = needle then pure (some i) else rchrLoop s needle i

/-- src/stringptr/stringptr_rchr.c:4-12: the offset of the returned pointer, `none` for NULL. -/
def rchr (s : Option SP) (needle : Int) : C (Option Nat) :=
  match s with
  | none => pure none
  | some s => if s.size = 0 then pure none else rchrLoop s needle s.size

/-- src/stringptr/stringptr_new.c:5-12: header of 16 bytes, then the string. The header fields are kept
    outside the byte buffer. -/
def new (a : Alloc) (size : Nat) : C (Option SP) :=
  match malloc a (szt (16 + size + 1)) with
  | none => pure none
  | some obj => do
    let buf ← wr (obj.drop 16) size 0
    pure (some ⟨buf, size⟩)

/-- ISO C `memcpy(d + i, s, n)` from another object. -/
def memcpy (d : List Byte) (i : Nat) (s : List Byte) (n : Nat) : C (List Byte) := do
  wrN d i (← rdN s 0 n)

/-- src/stringptr/stringptr_copy.c:4-9: the result of stringptr_new is not checked. -/
def copy (a : Alloc) (s : Option SP) : C (Option SP) :=
  match s with
  | none => pure none
  | some s => do
    match ← new a s.size with
    | none => .error .nullDeref
    | some r => do
      let buf ← memcpy r.buf 0 s.buf s.size
      pure (some ⟨buf, r.size⟩)

/-- src/stringptr/stringptr_concat.c:22-30: the copies. -/
def concatLoop (dst : List Byte) (pos : Nat) : List SP → C (List Byte)
  | [] => pure dst
  | s :: ss => do concatLoop (← memcpy dst pos s.buf s.size) (pos + s.size) ss

/-- src/stringptr/stringptr_concat.c:6-34: the arguments before the NULL are `self :: rest`. -/
def concat (a : Alloc) (self : SP) (rest : List SP) : C (Option SP) := do
  let total := (self :: rest).foldl (fun t s => szt (t + s.size)) 0
  match ← new a total with
  | none => pure none
  | some r => do
    let buf ← concatLoop r.buf 0 (self :: rest)
    pure (some ⟨buf, r.size⟩)

/-- src/stringptr/stringptr_strdup.c:5-12: the new object. -/
def strdup (a : Alloc) (s : Option SP) : C (Option (List Byte)) :=
  match s with
  | none => pure none
  | some s =>
    match malloc a (szt (s.size + 1)) with
    | none => pure none
    | some r => do
      let r ← memcpy r 0 s.buf s.size
      let r ← wr r s.size 0
      pure (some r)

/-- src/stringptr/stringptr_fromchar.c:4-8; `none` is a NULL pointer. -/
def fromchar (s : Option (List Byte)) : C SP :=
  match s with
  | none => pure ⟨[], 0⟩
  | some b => do pure ⟨b, ← Hex.strlen b⟩

/-- src/stringptr/read_stdin_line.c:6-17 after a successful fgets, which left `buf` (`none` if it
    returned NULL). -/
def read_stdin_line (buf : Option (List Byte)) (chomp : Bool) : C SP :=
  match buf with
  | none => pure ⟨[], 0⟩
  | some b => do
    let line ← fromchar (some b)
    if chomp then do
      let (line, _) ← shiftleft line 1
      pure line
    else pure line

/-! ### Lists

A stringptrlist is an sblist of stringptrs. The list operations are those proved in C25, so here the list
is the list of its entries. -/

/-- A piece of a buffer: offset and length. -/
abbrev Piece := Nat × Nat

/-- src/stringptrlist/stringptr_splitc.c:13-19: the loop, `n` rounds to go. `ok k` is whether the list can
    grow for its entry number `k` (if not, `stringptrlist_add` fails and its result is ignored). -/
def splitcLoop (size : Nat) (delim : Int) (ok : Nat → Bool) :
    (n i linestart : Nat) → (buf : List Byte) → (acc : List Piece) → (k : Nat) → C (List Byte × List Piece)
  | 0, _, _, buf, acc, _ => pure (buf, acc)
  | n + 1, i, linestart, buf, acc, k => do
    let hit ← if i = size then pure true else do pure (decide ((← rd buf i).toInt = delim))
    if hit then do
      let acc := if ok k then acc ++ [(linestart, i - linestart)] else acc
      let buf ← wr buf i 0
      splitcLoop size delim ok n (i + 1) (i + 1) buf acc (k + 1)
    else splitcLoop size delim ok n (i + 1) linestart buf acc k

/-- src/stringptrlist/stringptr_splitc.c:8-21 (when the list header can be allocated; otherwise NULL). -/
def splitc (s : SP) (delim : Int) (ok : Nat → Bool) : C (List Byte × List Piece) :=
  splitcLoop s.size delim ok (s.size + 1) 0 0 s.buf [] 0

/-- src/stringptrlist/stringptr_splits.c:15: whether the piece ends at `i`. -/
def splitsHit (buf : List Byte) (size : Nat) (d : SP) (i : Nat) : C Bool :=
  if i = size then pure true else here ⟨buf, size⟩ i d

/-- src/stringptrlist/stringptr_splits.c:14-22; running out of `fuel` is `hang`. -/
def splitsLoop (size : Nat) (d : SP) (ok : Nat → Bool) :
    (fuel i linestart : Nat) → (buf : List Byte) → (acc : List Piece) → (k : Nat) → C (List Byte × List Piece)
  | 0, _, _, _, _, _ => .error .hang
  | fuel + 1, i, linestart, buf, acc, k => do
    if i ≤ size then do
      if ← splitsHit buf size d i then do
        let acc := if ok k then acc ++ [(linestart, i - linestart)] else acc
        let buf ← wr buf i 0
        splitsLoop size d ok fuel (i + d.size) (i + d.size) buf acc (k + 1)
      else splitsLoop size d ok fuel (i + 1) linestart buf acc k
    else pure (buf, acc)

/-- src/stringptrlist/stringptr_splits.c:9-24 (when the list header can be allocated). -/
def splits (s d : SP) (ok : Nat → Bool) (fuel : Nat) : C (List Byte × List Piece) :=
  splitsLoop s.size d ok fuel 0 0 s.buf [] 0

/-- `if(n) memcpy(d + i, s, n)`. -/
def memcpyIf (d : List Byte) (i : Nat) (s : List Byte) (n : Nat) : C (List Byte) :=
  if n ≠ 0 then memcpy d i s n else pure d

/-- src/stringptrlist/stringptr_replace.c:12-23: the copies, from list entry `i` on. -/
def replaceLoop (buf : List Byte) (whit : SP) : (ps : List Piece) → (res : List Byte) → (w : Nat) → C (List Byte)
  | [], res, _ => pure res
  | p :: ps, res, w => do
    let res ← memcpyIf res w (buf.drop p.1) p.2
    let w := w + p.2
    if ps ≠ [] ∧ whit.size ≠ 0 then do
      let res ← memcpy res w whit.buf whit.size
      replaceLoop buf whit ps res (w + whit.size)
    else replaceLoop buf whit ps res w

/-- src/stringptrlist/stringptr_replace.c:3-27 (non-NULL arguments, list allocations succeeding); result:
    the argument's buffer afterwards and the new string. -/
def replace (a : Alloc) (s what whit : SP) (fuel : Nat) : C (List Byte × Option SP) := do
  let (buf, ps) ← splits s what (fun _ => true) fuel
  let k := sztSub ps.length 1
  let size := szt (sztSub s.size (szt (k * what.size)) + szt (k * whit.size))
  match ← new a size with
  | none => pure (buf, none)
  | some r => do
    let res ← replaceLoop buf whit ps r.buf 0
    pure (buf, some ⟨res, r.size⟩)

/-- src/stringptrlist/stringptrlist_tostring.c:13-19: the copies; `eol` is LF here and CR LF in
    src/stringptrlist/stringptrlist_tostring_dos.c:13-21. -/
def tostringLoop (eol : List Byte) : (l : List SP) → (res : List Byte) → (req : Nat) → C (List Byte)
  | [], res, _ => pure res
  | t :: l, res, req => do
    let res ← memcpyIf res req t.buf t.size
    let res ← wrN res (req + t.size) eol
    tostringLoop eol l res (req + t.size + eol.length)

/-- src/stringptrlist/stringptrlist_tostring.c:3-21, src/stringptrlist/stringptrlist_tostring_dos.c:3-23. -/
def tostringWith (eol : List Byte) (a : Alloc) (l : List SP) : C (Option SP) := do
  let req := l.foldl (fun r t => szt (r + t.size + eol.length)) 0
  match ← new a req with
  | none => pure none
  | some r => do
    let res ← tostringLoop eol l r.buf 0
    pure (some ⟨res, r.size⟩)

/-- src/stringptrlist/stringptrlist_tostring.c:3-21. -/
def tostring := tostringWith [ch '\n']
/-- src/stringptrlist/stringptrlist_tostring_dos.c:3-23. -/
def tostring_dos := tostringWith [ch '\r', ch '\n']

/-- src/stringptrlist/stringptrlist_find.c:9-15: the loop from index `i`. -/
def findLoop (what : SP) : (l : List SP) → (i : Nat) → C (Option Nat)
  | [], _ => pure none
  | s :: l, i => do if ← eq (some what) (some s) then pure (some i) else findLoop what l (i + 1)

/-- src/stringptrlist/stringptrlist_find.c:5-16; `none` is -1 resp. a NULL pointer. -/
def find (l : Option (List SP)) (what : Option SP) : C (Option Nat) :=
  match l, what with
  | some l, some what => findLoop what l 0
  | _, _ => pure none

/-- src/stringptrlist/stringptrlist_contains.c:4-6. -/
def lcontains (l : Option (List SP)) (what : Option SP) : C Bool := do pure (← find l what).isSome

/-- src/stringptrlist/stringptrlist_dup_entries.c:7-12; `a` gives the allocator's behaviour for each
    entry; result: the entries afterwards and the index of the entry that failed (`none` for -1). -/
def dupLoop : (l : List SP) → (a : Nat → Alloc) → (i : Nat) → C (List SP × Option Nat)
  | [], _, _ => pure ([], none)
  | s :: l, a, i => do
    match ← strdup (a i) (some s) with
    | none => pure (s :: l, some i)
    | some b => do
      let (l, r) ← dupLoop l a (i + 1)
      pure (⟨b, s.size⟩ :: l, r)

/-- src/stringptrlist/stringptrlist_dup_entries.c:3-14. -/
def dup_entries (l : List SP) (a : Nat → Alloc) : C (List SP × Option Nat) := dupLoop l a 0

/-- src/stringptrlist/stringptrlist_freestrings.c:6-11 on the pointer and size fields of the entries,
    `live` being the addresses of allocated objects. -/
def freestrings : List (Nat × Nat) → (live : List Nat) → C (List (Nat × Nat) × List Nat)
  | [], live => pure ([], live)
  | e :: es, live => do
    let live ← if e.1 ≠ 0 then Sblist.hfree live e.1 else pure live
    let (es, live) ← freestrings es live
    pure ((0, 0) :: es, live)

/-- src/stringptrlist/stringptrlist_add_strdup.c:3-7 on the entries' pointers and sizes. `p` is the address
    malloc gives for the copy (`none`: refused), `grow` whether the list can take another entry. -/
def add_strdup (l : List (Nat × Nat)) (size : Nat) (p : Option Nat) (grow : Bool) (live : List Nat) :
    List (Nat × Nat) × List Nat × Nat :=
  match p with
  | none => (l, live, 0)
  | some p => if grow then (l ++ [(p, size)], p :: live, 1) else (l, p :: live, 0)

/-! ### kvlist -/

/-- src/kvlist/kvlist.c:11-18: the loop; the entries are include/kvlist.h:9-13 with `value` as a number. -/
def kvLoop (what : SP) : List (SP × Nat) → C (Option Nat)
  | [] => pure none
  | s :: l => do if ← eq (some what) (some s.1) then pure (some s.2) else kvLoop what l

/-- src/kvlist/kvlist.c:7-20: the returned int and `*value` afterwards (`old` before); `none` is NULL. -/
def kv_find (l : Option (List (SP × Nat))) (what : Option SP) (value : Option Nat) : C (Nat × Option Nat) :=
  match l, what, value with
  | some l, some what, some _ => do
    match ← kvLoop what l with
    | some v => pure (1, some v)
    | none => pure (0, value)
  | _, _, _ => pure (0, value)

end Ulz.Stringptr

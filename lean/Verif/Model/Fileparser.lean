import Verif.Model.Stringptr
/-! Model of src/fileparser and of stringptrlist_fromfile and stringptrlist_tofile. The file is a regular file that
    does not change while it is read, and `read` and `lseek` do not fail: `read` then delivers as many bytes as are
    asked for and available. Positions stay below 2^63. -/
namespace Ulz.Fileparser
open Ulz.Stringptr (SP strdup)

/-- An open regular file: its content, and the offset of the descriptor. -/
structure Fd where
  data : List Byte
  off : Nat
  deriving DecidableEq, Repr

/-- POSIX `read(fd, buf, n)` for a regular file: the file, the buffer and the number of bytes. -/
def read (f : Fd) (buf : List Byte) (n : Nat) : C (Fd × List Byte × Nat) := do
  let x := (f.data.drop f.off).take n
  pure ({ f with off := f.off + x.length }, ← wrN buf 0 x, x.length)

/-- POSIX `lseek(fd, pos, SEEK_SET)`. -/
def seek (f : Fd) (pos : Nat) : Fd := { f with off := pos }

/-- include/fileparser.h:9-14. -/
structure FP where
  fpos : Nat
  len : Nat
  buf : List Byte
  file : Int
  deriving DecidableEq, Repr

/-- sizeof(parser->buf) -/
def BUFSIZE : Nat := 1024

/-- src/fileparser/fileparser_readline_userbuf.c:11-12: the position of the first line feed from `i` on, if any. -/
def findLF (buf : List Byte) (len : Nat) : (fuel i : Nat) → C (Option Nat)
  | 0, _ => .error .hang
  | fuel + 1, i =>
    if i < len then do
      if (← rd buf i) = ch '\n' then pure (some i) else findLF buf len fuel (i + 1)
    else pure none

/-- src/fileparser/fileparser_readline_userbuf.c:3-28 with `parser` not NULL. Result: the file, the parser (its `buf`
    untouched), the buffer and the returned value. -/
def readline_userbuf (f : Fd) (p : FP) (buf : List Byte) (bufsize : Nat) : C (Fd × FP × List Byte × Int) := do
  if p.file = 0 then pure (f, p, buf, -1)
  else
    let (f, buf, n) ← read f buf bufsize
    if n = 0 then pure (f, p, buf, -2)
    else
      match ← findLF buf n (n + 1) 0 with
      | some i => pure (seek f (p.fpos + (i + 1)), { p with fpos := p.fpos + (i + 1), len := i }, ← wr buf i 0, 0)
      | none =>
        if n < bufsize then pure (f, { p with fpos := p.fpos + (n + 1), len := n }, ← wr buf n 0, 0)
        else pure (seek f p.fpos, { p with len := n }, buf, -3)

/-- src/fileparser/fileparser_readline.c:3-5. -/
def readline (f : Fd) (p : FP) : C (Fd × FP × Int) := do
  let (f, p, buf, r) ← readline_userbuf f p p.buf BUFSIZE
  pure (f, { p with buf := buf }, r)

/-- src/fileparser/fileparser_getline.c:3-10: the line, for a parser and a line that are not NULL. -/
def getline (p : FP) : SP := ⟨p.buf, p.len⟩

/-- src/fileparser/fileparser_getnextlinelength.c:7-11: the loop; the file, the parser, `res` and `ret`. -/
def lenLoop : (fuel : Nat) → Fd → FP → (res : Nat) → C (Fd × FP × Nat × Int)
  | 0, _, _, _ => .error .hang
  | fuel + 1, f, p, res => do
    let (f, p, ret) ← readline f p
    if ret = -3 then
      lenLoop fuel (seek f (p.fpos + BUFSIZE)) { p with fpos := p.fpos + BUFSIZE } (res + BUFSIZE)
    else pure (f, p, res, ret)

/-- src/fileparser/fileparser_getnextlinelength.c:3-17: the file, the parser and the returned value. -/
def getnextlinelength (f : Fd) (p : FP) : C (Fd × FP × Int) := do
  let store := p.fpos
  let (f, p, res, ret) ← lenLoop (f.data.length + 1) f p 0
  if ret ≠ 0 then pure (f, p, -1)
  else pure (seek f store, { p with fpos := store }, ((res + p.len : Nat) : Int))

/-- src/fileparser/fileparser_open.c:9-15: a successful open that returned the descriptor `fd`. `buf` and `len` stay
    uninitialised. -/
def openFile (data : List Byte) (fd : Int) (uninit : List Byte) (len : Nat) : Fd × FP := (⟨data, 0⟩, ⟨0, len, uninit, fd⟩)

/-! ### stringptrlist_tofile, stringptrlist_fromfile -/

/-- src/stringptrlist/stringptrlist_tofile.c:8-20: the content of the file (`O_TRUNC`: starting empty) and the result,
    if the file can be opened and nothing fails to be written. -/
def tofileLoop : List SP → List Byte → C (List Byte)
  | [], data => pure data
  | s :: l, data => do tofileLoop l (data ++ (← rdN s.buf 0 s.size) ++ [ch '\n'])

/-- src/stringptrlist/stringptrlist_tofile.c:6-20. -/
def tofile (l : List SP) : C (List Byte × Nat) := do pure (← tofileLoop l [], 1)

/-- src/stringptrlist/stringptrlist_fromfile.c:9-11: the loop. `mem k` is what malloc answers for the copy of the k-th
    line, `grow k` whether the list can take it (src/stringptrlist/stringptrlist_add_strdup.c:3-7). -/
def fromLoop (mem : Nat → Alloc) (grow : Nat → Bool) : (fuel k : Nat) → Fd → FP → List SP → C (List SP × Nat)
  | 0, _, _, _, _ => .error .hang
  | fuel + 1, k, f, p, l => do
    let (f, p, r) ← readline f p
    if r = 0 ∧ (getline p).size ≠ 0 then
      match ← strdup (mem k) (some (getline p)) with
      | none => pure (l, 0)
      | some s =>
        if grow k then fromLoop mem grow fuel (k + 1) f p (l ++ [⟨s, (getline p).size⟩]) else pure (l, 0)
    else pure (l, 1)

/-- src/stringptrlist/stringptrlist_fromfile.c:4-17 for a file that can be opened. -/
def fromfile (mem : Nat → Alloc) (grow : Nat → Bool) (data : List Byte) (fd : Int) (uninit : List Byte) (len : Nat)
    (l : List SP) : C (List SP × Nat) :=
  let (f, p) := openFile data fd uninit len
  fromLoop mem grow (data.length + 2) 0 f p l

end Ulz.Fileparser

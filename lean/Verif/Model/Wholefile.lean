import Verif.Model.Stringptr
/-! Model of writing and reading whole files: src/stringptr/stringptr_tofile.c, src/stringptr/stringptr_fromfile.c and
    src/stringptrlist/stringptrlist_tofile.c with arbitrary partial transfers. The system's answers to the successive
    calls of `write` or `read` are given by a list (or function) of `Option Nat`: `none` is -1, `some k` transfers as
    many bytes as possible, but at most `k`. A program that still runs when the answers are used up is `hang`. -/
namespace Ulz.Wholefile
open Ulz.Stringptr (SP new)

/-- chunksize: src/stringptr/stringptr_tofile.c:12 and 64*1024 in src/stringptr/stringptr_fromfile.c:27. -/
def chunk (togo : Nat) : Nat := if togo > 64 * 1024 then 64 * 1024 else togo

/-- src/stringptr/stringptr_tofile.c:23-28: the loop; the content of the file and `bufpos`. The kernel may look at the
    whole range that is offered to it. -/
def tofileLoop (p : SP) : (answers : List (Option Nat)) → (bufpos : Nat) → (file : List Byte) → C (List Byte × Nat)
  | [], bufpos, file => if bufpos < p.size then .error .hang else pure (file, bufpos)
  | a :: answers, bufpos, file =>
    if bufpos < p.size then do
      let x ← rdN p.buf bufpos (chunk (p.size - bufpos))
      match a with
      | none => pure (file, bufpos)
      | some k => tofileLoop p answers (bufpos + (x.take k).length) (file ++ x.take k)
    else pure (file, bufpos)

/-- src/stringptr/stringptr_tofile.c:11-31: the new content of the file (`none`: untouched) and the result. `name` and
    `opens` tell whether the file name is not NULL and whether `open` (which truncates) succeeds; `buffer` is `none` if
    it or its `ptr` is NULL. -/
def stringptr_tofile (name opens : Bool) (buffer : Option SP) (answers : List (Option Nat)) : C (Option (List Byte) × Nat) :=
  match buffer with
  | none => pure (none, 0)
  | some p =>
    if !name || !opens then pure (none, 0)
    else do
      let (file, r) ← tofileLoop p answers 0 []
      pure (some file, r)

/-- src/stringptr/stringptr_fromfile.c:25-33: the loop over the file content `data`, of which `bufpos` bytes have been
    read; the buffer, or `none` after a failed `read`. -/
def fromfileLoop (data : List Byte) (size : Nat) : (answers : List (Option Nat)) → (bufpos : Nat) → (buf : List Byte) → C (Option (List Byte))
  | [], bufpos, buf => if bufpos < size then .error .hang else pure (some buf)
  | a :: answers, bufpos, buf =>
    if bufpos < size then
      match a with
      | none => pure none
      | some k => do
        let x := ((data.drop bufpos).take (chunk (size - bufpos))).take k
        fromfileLoop data size answers (bufpos + x.length) (← wrN buf bufpos x)
    else pure (some buf)

/-- src/filelib/getfilesize.c:6-11: `st` is the size found by `stat`, `none` if that fails. -/
def getfilesize (st : Option Nat) : Nat := st.getD 0

/-- src/stringptr/stringptr_fromfile.c:12-37: `st` as above, `opens` whether `open` succeeds, `a` the answer of malloc,
    `data` the content of the file while it is read. -/
def stringptr_fromfile (st : Option Nat) (opens : Bool) (a : Alloc) (data : List Byte) (answers : List (Option Nat)) : C (Option SP) :=
  let size := getfilesize st
  if size = 0 then pure none
  else if !opens then pure none
  else do
    match ← new a size with
    | none => pure none
    | some p =>
      match ← fromfileLoop data size answers 0 p.buf with
      | none => pure none
      | some buf => pure (some { p with buf := buf })

/-- `write(fd, x, n)` with answer `a`, for readable `x`: the file, and whether all was written. -/
def writeAll (file x : List Byte) (a : Option Nat) : List Byte × Bool :=
  match a with
  | none => (file, false)
  | some k => (file ++ x.take k, decide ((x.take k).length = x.length))

/-- src/stringptrlist/stringptrlist_tofile.c:11-16: the loop; call number `i` gets the answer `answers i`. The content of
    the file and the result. -/
def listLoop (answers : Nat → Option Nat) : (i : Nat) → List SP → (file : List Byte) → C (List Byte × Nat)
  | _, [], file => pure (file, 1)
  | i, s :: l, file => do
    let x ← rdN s.buf 0 s.size
    let (file, ok) := writeAll file x (answers i)
    if !ok then pure (file, 0)
    else
      let (file, ok) := writeAll file [ch '\n'] (answers (i + 1))
      if !ok then pure (file, 0)
      else listLoop answers (i + 2) l file

/-- src/stringptrlist/stringptrlist_tofile.c:6-20: `opens` tells whether `open` (which truncates) succeeds. -/
def stringptrlist_tofile (opens : Bool) (answers : Nat → Option Nat) (l : List SP) : C (Option (List Byte) × Nat) :=
  if !opens then pure (none, 0)
  else do
    let (file, r) ← listLoop answers 0 l []
    pure (some file, r)

end Ulz.Wholefile

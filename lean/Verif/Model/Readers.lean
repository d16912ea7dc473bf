import Verif.Model.Fileparser
import Verif.Model.Wholefile
import Verif.Model.Stdin
import Verif.Spec.Fileparser
/-! Model of the four ways the library has to read a text line by line, as programs over its functions. -/
namespace Ulz.Readers
open Ulz.Stringptr (SP Piece)

/-- `fileparser_open`, then `fileparser_readline_userbuf` until it fails (src/fileparser/fileparser_open.c:6-15, src/fileparser/fileparser_readline_userbuf.c:3-28); the lines if it
    ended with the end of the file, `none` after an error. -/
def parserLines (data : List Byte) (fd : Int) (uninit : List Byte) (len : Nat) (buf : List Byte) : C (Option (List (List Byte))) := do
  let (f, p) := Fileparser.openFile data fd uninit len
  let (ls, r) ← Fileparser.Spec.readAll buf.length (data.length + 2) f p buf
  pure (if r = -2 then some ls else none)

/-- The texts of a list (include/stringptrlist.h:29-30). -/
def texts (l : List SP) : C (List (List Byte)) := l.mapM fun p => rdN p.buf 0 p.size

/-- `stringptrlist_fromfile` into an empty list (src/stringptrlist/stringptrlist_fromfile.c:4-17), and its texts; `none` if it fails. -/
def listLines (mem : Nat → Alloc) (grow : Nat → Bool) (data : List Byte) (fd : Int) (uninit : List Byte) (len : Nat) :
    C (Option (List (List Byte))) := do
  let (l, r) ← Fileparser.fromfile mem grow data fd uninit len []
  if r = 1 then do pure (some (← texts l)) else pure none

/-- `stringptr_fromfile` and `stringptr_linesplit` (src/stringptr/stringptr_fromfile.c:12-37, include/stringptrlist.h:49,
    src/stringptrlist/stringptr_splitc.c:8-21), and the texts of the list; `none` if the file is not read. The list can grow. -/
def splitLines (a : Alloc) (data : List Byte) (answers : List (Option Nat)) : C (Option (List (List Byte))) := do
  match ← Wholefile.stringptr_fromfile (some data.length) true a data answers with
  | none => pure none
  | some p => do
    let (buf, ps) ← Stringptr.splitc p (ch '\n').toInt (fun _ => true)
    pure (some (← ps.mapM fun (x : Piece) => rdN buf x.1 x.2))

/-- `read_stdin_line` with `chomp` until the end (src/stringptr/read_stdin_line.c:6-17). -/
def stdinLines (bufsize : Nat) (buf data : List Byte) : C (List (List Byte)) := Stdin.readAll bufsize true (data.length + 1) buf data

end Ulz.Readers

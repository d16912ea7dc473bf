import Verif.Model.Wholefile
import Verif.Model.Fileparser
/-! The system calls and the allocations of the functions that read or write whole files: src/stringptr/stringptr_tofile.c,
    src/stringptr/stringptr_fromfile.c, src/stringptrlist/stringptrlist_tofile.c and src/stringptrlist/stringptrlist_fromfile.c. The
    result of each function is the list of the calls made so far and the returned value, `none` while the function still runs (when
    the answers of the system that are given are used up). The bytes that are transferred are modelled in Model/Wholefile.lean
    and Model/Fpio.lean. -/
namespace Ulz.Handles
open Ulz.Wholefile (chunk)

/-- A successful `open` (with the descriptor, and whether O_CLOEXEC is given), `read`, `write`, `lseek` and `close` (successful or not),
    a successful `malloc`, and `free`. -/
inductive Ev where
  | open (d : Nat) (cloexec : Bool)
  | read (d : Nat)
  | write (d : Nat)
  | seek (d : Nat)
  | close (d : Nat)
  | malloc
  | free
  deriving DecidableEq, Repr

/-- src/stringptr/stringptr_tofile.c:23-28: the loop; `none` is an answer -1 of `write`. -/
def tofileLoop (d size : Nat) : (answers : List (Option Nat)) → (bufpos : Nat) → List Ev × Option Nat
  | [], bufpos => if bufpos < size then ([], none) else ([], some bufpos)
  | a :: answers, bufpos =>
    if bufpos < size then
      match a with
      | none => ([.write d], some bufpos)
      | some k =>
        let (t, r) := tofileLoop d size answers (bufpos + min k (chunk (size - bufpos)))
        (.write d :: t, r)
    else ([], some bufpos)

/-- src/stringptr/stringptr_tofile.c:11-31: `args` tells whether neither the name nor the buffer nor its `ptr` is NULL, `fd` is the answer of
    `open` (`none`: -1). -/
def stringptr_tofile (args : Bool) (fd : Option Nat) (size : Nat) (answers : List (Option Nat)) : List Ev × Option Nat :=
  if !args then ([], some 0)
  else match fd with
    | none => ([], some 0)
    | some d =>
      match tofileLoop d size answers 0 with
      | (t, none) => (.open d true :: t, none)
      | (t, some n) => (.open d true :: (t ++ [.close d]), some n)

/-- src/stringptr/stringptr_fromfile.c:25-33: the loop; the value tells whether there still is a buffer at FEXIT. `read` delivers at most
    what is asked for. -/
def fromfileLoop (d size : Nat) : (answers : List (Option Nat)) → (bufpos : Nat) → List Ev × Option Bool
  | [], bufpos => if bufpos < size then ([], none) else ([], some true)
  | a :: answers, bufpos =>
    if bufpos < size then
      match a with
      | none => ([.read d, .free], some false)
      | some k =>
        let (t, r) := fromfileLoop d size answers (bufpos + min k (chunk (size - bufpos)))
        (.read d :: t, r)
    else ([], some true)

/-- src/stringptr/stringptr_fromfile.c:12-37: `size` is what getfilesize returns, `fd` the answer of `open`, `mem` whether `malloc`
    succeeds. The value tells whether a string is returned (or NULL). -/
def stringptr_fromfile (size : Nat) (fd : Option Nat) (mem : Bool) (answers : List (Option Nat)) : List Ev × Option Bool :=
  if size = 0 then ([], some false)
  else match fd with
    | none => ([], some false)
    | some d =>
      if !mem then ([.open d true, .close d], some false)
      else match fromfileLoop d size answers 0 with
        | (t, none) => (.open d true :: .malloc :: t, none)
        | (t, some r) => (.open d true :: .malloc :: (t ++ [.close d]), some r)

/-- src/stringptrlist/stringptrlist_tofile.c:11-16: the loop over the sizes of the strings; `answers` are the answers of `write`. -/
def listLoop (d : Nat) : (sizes : List Nat) → (answers : List (Option Nat)) → List Ev × Option Nat
  | [], _ => ([], some 1)
  | _ :: _, [] => ([], none)
  | n :: sizes, a :: answers =>
    if a ≠ some n then ([.write d], some 0)
    else match answers with
      | [] => ([.write d], none)
      | b :: answers =>
        if b ≠ some 1 then ([.write d, .write d], some 0)
        else
          let (t, r) := listLoop d sizes answers
          (.write d :: .write d :: t, r)

/-- src/stringptrlist/stringptrlist_tofile.c:6-20. -/
def stringptrlist_tofile (fd : Option Nat) (sizes : List Nat) (answers : List (Option Nat)) : List Ev × Option Nat :=
  match fd with
  | none => ([], some 0)
  | some d =>
    match listLoop d sizes answers with
    | (t, none) => (.open d false :: t, none)
    | (t, some r) => (.open d false :: (t ++ [.close d]), some r)

/-- The answers in one turn of the loop of stringptrlist_fromfile: the bytes `read` delivers (`none`: -1), whether `lseek` succeeds, and
    what happens in stringptrlist_add_strdup. -/
structure Turn where
  data : Option (List Byte)
  seek : Bool
  copy : Bool
  grow : Bool

/-- src/fileparser/fileparser_readline_userbuf.c:3-28 for `bufsize` = 1024 (include/fileparser.h:12): the calls and, if 0 is returned,
    the length of the line. -/
def readline (d : Nat) (a : Turn) : List Ev × Option Nat :=
  if d = 0 then ([], none)
  else match a.data with
    | none => ([.read d], none)
    | some x =>
      if x.length = 0 then ([.read d], none)
      else if ch '\n' ∈ x then ([.read d, .seek d], if a.seek then some (x.idxOf (ch '\n')) else none)
      else if x.length < Fileparser.BUFSIZE then ([.read d], some x.length)
      else ([.read d, .seek d], none)

/-- src/stringptrlist/stringptrlist_fromfile.c:9-11: the loop; the value is `success` at the label `ferr` and the number of lines that were
    added. src/stringptrlist/stringptrlist_add_strdup.c:3-7 makes a copy, which stays when the list cannot grow. -/
def fromLoop (d : Nat) : List Turn → (added : Nat) → List Ev × Option (Nat × Nat)
  | [], added => if d = 0 then ([], some (1, added)) else ([], none)
  | a :: as, added =>
    match readline d a with
    | (t, none) => (t, some (1, added))
    | (t, some 0) => (t, some (1, added))
    | (t, some (_ + 1)) =>
      if !a.copy then (t, some (0, added))
      else if !a.grow then (t ++ [.malloc], some (0, added))
      else
        let (u, r) := fromLoop d as (added + 1)
        (t ++ .malloc :: u, r)

/-- src/stringptrlist/stringptrlist_fromfile.c:4-17, with src/fileparser/fileparser_open.c:9-15 and src/fileparser/fileparser_close.c:5: the
    value is the result and the number of lines that were added. -/
def stringptrlist_fromfile (fd : Option Nat) (as : List Turn) : List Ev × Option (Nat × Nat) :=
  match fd with
  | none => ([], some (0, 0))
  | some d =>
    match fromLoop d as 0 with
    | (t, none) => (.open d true :: t, none)
    | (t, some r) => (.open d true :: (t ++ if d > 0 then [.close d] else []), some r)

end Ulz.Handles

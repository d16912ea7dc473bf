import Verif.Model.Savers
/-! Reading a whole file (src/stringptr/stringptr_fromfile.c) while another process saves to it (src/stringptr/stringptr_tofile.c,
    src/stringptrlist/stringptrlist_tofile.c): one step is one system call of one of them. -/
namespace Ulz.Saveread
open Ulz.Stringptr (SP new)
open Ulz.Wholefile (chunk)

/-- Where a call of stringptr_fromfile is: before `stat`; before `open`, with the size that was found; in the loop, with the string
    that is being filled and `bufpos`; or returned. -/
inductive Reader where
  | idle
  | found (size : Nat)
  | reading (p : SP) (bufpos : Nat)
  | done (r : Option SP)

/-- The file and the process that saves, and the reader. -/
structure Sys where
  disk : Savers.Sys
  reader : Reader

/-- A system call of the process that saves, or of the reader: `stat`, `open` (followed by malloc, with its answer), or `read`, which fails or
    transfers at most so many bytes. -/
inductive Ev where
  | save (e : Savers.Ev)
  | stat
  | opens (a : Alloc)
  | read (answer : Option Nat)

/-- src/stringptr/stringptr_fromfile.c:25: the loop condition. -/
def loop (p : SP) (bufpos : Nat) : Reader := if bufpos < p.size then .reading p bufpos else .done (some p)

/-- One system call. src/filelib/getfilesize.c:6-11 and src/stringptr/stringptr_fromfile.c:15-20 (`stat`), :21-23 (`open`, which does not
    fail here) and :25-32 (`read`). Events that are not possible have no effect. -/
def step (s : Sys) : Ev → C Sys
  | .save e => pure ⟨Savers.step s.disk e, s.reader⟩
  | .stat =>
    match s.reader with
    | .idle => pure ⟨s.disk, if s.disk.file.length = 0 then .done none else .found s.disk.file.length⟩
    | _ => pure s
  | .opens a =>
    match s.reader with
    | .found size => do
      match ← new a size with
      | none => pure ⟨s.disk, .done none⟩
      | some p => pure ⟨s.disk, loop p 0⟩
    | _ => pure s
  | .read answer =>
    match s.reader with
    | .reading p bufpos =>
      match answer with
      | none => pure ⟨s.disk, .done none⟩
      | some k => do
        let x := ((s.disk.file.drop bufpos).take (chunk (p.size - bufpos))).take k
        let buf ← wrN p.buf bufpos x
        pure ⟨s.disk, loop ⟨buf, p.size⟩ (bufpos + x.length)⟩
    | _ => pure s

/-- A schedule, up to any moment. -/
def run (s : Sys) : List Ev → C Sys
  | [] => pure s
  | e :: es => do run (← step s e) es

end Ulz.Saveread

import Verif.Model.Wholefile
/-! Saving a text to a file (src/stringptr/stringptr_tofile.c, src/stringptrlist/stringptrlist_tofile.c) step by step, as a
    crash, a reader or another process that saves to the same file at the same time see it: one step is one system call.
    Calls of `open` and `write` on one file are atomic (POSIX). -/
namespace Ulz.Savers

/-- A process saving `content`: `off` is the offset of its descriptor, `none` before `open`. -/
structure Writer where
  content : List Byte
  off : Option Nat
  deriving DecidableEq, Repr

/-- The file and the processes. -/
structure Sys where
  file : List Byte
  ws : List Writer
  deriving DecidableEq, Repr

/-- Process `i` opens the file, or its `write` transfers at most `k` bytes. -/
inductive Ev where
  | opens (i : Nat)
  | writes (i k : Nat)

/-- POSIX `write` at offset `off` to a regular file: a gap behind the end is filled with zero bytes. -/
def pwrite (file : List Byte) (off : Nat) (x : List Byte) : List Byte :=
  if x = [] then file
  else file.take off ++ List.replicate (off - file.length) 0 ++ x ++ file.drop (off + x.length)

/-- One system call. `open` truncates (`O_TRUNC`, src/stringptr/stringptr_tofile.c:17, 21,
    src/stringptrlist/stringptrlist_tofile.c:8); `write` is called while something is left
    (src/stringptr/stringptr_tofile.c:23-28, src/stringptrlist/stringptrlist_tofile.c:11-14). Events that are not possible
    have no effect. -/
def step (s : Sys) : Ev → Sys
  | .opens i =>
    match s.ws[i]? with
    | some ⟨c, none⟩ => ⟨[], s.ws.set i ⟨c, some 0⟩⟩
    | _ => s
  | .writes i k =>
    match s.ws[i]? with
    | some ⟨c, some o⟩ => ⟨pwrite s.file o ((c.drop o).take k), s.ws.set i ⟨c, some (o + ((c.drop o).take k).length)⟩⟩
    | _ => s

/-- A schedule, up to any moment. -/
def run (s : Sys) : List Ev → Sys
  | [] => s
  | e :: es => run (step s e) es

end Ulz.Savers

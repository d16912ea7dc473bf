import Verif.Model.Output
import Verif.Model.Optparser
import Verif.Model.Fileparser
/-! Model of src/optparser/op_printall.c, include/stdio-repl.h, and of the descriptors of src/fileparser. Output is the
    list of bytes given to `write`, which is taken to write all of them. -/
namespace Ulz.Misc
open Ulz.Output Ulz.Optparser Ulz.Fileparser

/-! ### op_printall -/

/-- src/optparser/op_printall.c:6-9: the loop. -/
def printLoop (p : Op) : (fuel i : Nat) → C (List Byte)
  | 0, _ => .error .hang
  | fuel + 1, i =>
    if i < p.argc then do
      let a ← arg p i
      let t ← log_putc (some a)
      let r ← printLoop p fuel (i + 1)
      pure (t ++ log_putln ++ r)
    else pure []

/-- src/optparser/op_printall.c:4-10: what is written to descriptor 1. -/
def op_printall (p : Op) : C (List Byte) := printLoop p (p.argc + 1) 1

/-! ### include/stdio-repl.h -/

/-- include/stdio-repl.h:43: the first argument of `ulz_fprintf`. `f` is the text of the macro argument; `eq` tells whether two
    string literals with these contents have the same address, which is up to the compiler. -/
def streamFd (eq : List Byte → List Byte → Bool) (f : List Byte) : Int :=
  if eq f (bytes! "stdout") then 1 else if eq f (bytes! "stderr") then 2 else -1

/-- What arrives at a descriptor: `write` to -1 fails with EBADF. -/
def arrives (fd : Int) (t : List Byte) : List (Int × List Byte) := if fd = -1 then [] else [(fd, t)]

/-- include/stdio-repl.h:43: `fprintf(f, format, args)`. -/
def fprintf (eq : List Byte → List Byte → Bool) (f dest cbuf format : List Byte) (args : List Format.Arg) :
    C (List (Int × List Byte)) := do
  let t ← ulz_fprintf dest cbuf format args
  pure (arrives (streamFd eq f) t)

/-- include/stdio-repl.h:47. -/
def puts (x : List Byte) : C (List (Int × List Byte)) := do pure (arrives 1 (← log_putc (some x)))

/-- include/stdio-repl.h:46: `msg` is what strerror returns. -/
def perror (x : Option (List Byte)) (msg : List Byte) : C (List (Int × List Byte)) := do
  pure (arrives 2 (← log_puterror x msg))

/-! ### descriptors of the file parser -/

/-- src/fileparser/fileparser_open.c:9-15 for arguments that are not NULL: `r` is the descriptor `open` returns, or its errno.
    `fds` are the open descriptors. -/
def fp_open (fds : List Nat) (p : FP) (r : Except Nat Nat) : List Nat × FP × Int :=
  match r with
  | .error e => (fds, { p with file := -1 }, e)
  | .ok d => (d :: fds, { p with file := d, fpos := 0 }, 0)

/-- src/fileparser/fileparser_close.c:3-10; `none` is a NULL parser. The result of `close` is ignored. -/
def fp_close (fds : List Nat) (p : Option FP) : List Nat × Option FP × Int :=
  match p with
  | none => (fds, none, -1)
  | some p => (if p.file > 0 then fds.erase p.file.toNat else fds, some { p with file := -1, fpos := 0, len := 0 }, 0)

/-- `k` times: open a file, which succeeds, and close it. `pick` is how the system chooses a descriptor. -/
def cycles (pick : List Nat → Nat) : (k : Nat) → List Nat → FP → List Nat
  | 0, fds, _ => fds
  | k + 1, fds, p =>
    let (fds, p, _) := fp_open fds p (.ok (pick fds))
    match fp_close fds (some p) with
    | (fds, some p, _) => cycles pick k fds p
    | (fds, none, _) => fds

end Ulz.Misc

import Verif.Model.Proc
/-! A program that closes fds[0] of a process itself, so that the process sees the end of its input: include/proclib.h has no function for
    this. What it opens and closes between that and process_close (src/proclib/process.c:49-56). -/
namespace Ulz.Closein
open Ulz.Proc

/-- What the program does in between: it opens a file, or closes one of those it has opened (the program is the model's). -/
inductive Act where
  | open_ (o : Obj)
  | close_ (fd : Nat)

/-- One action: the table and the descriptors of the files the program has opened and not closed. `open` gives the lowest free
    descriptor, of those below the limit `n` (POSIX). -/
def act (n : Nat) (s : Table × List Nat) : Act → Table × List Nat
  | .open_ o => match acquire n s.1 o with
    | (t, some f) => (t, s.2 ++ [f])
    | (t, none) => (t, s.2)
  | .close_ fd => if fd ∈ s.2 then (close s.1 fd, s.2.erase fd) else s

/-- src/proclib/process.c:23: `p->fds[0]`. -/
def input (p : Process) : Nat := p.fds.getD 0 0

/-- `close(p.fds[0])` and the actions. -/
def between (n : Nat) (t : Table) (p : Process) (as : List Act) : Table × List Nat := as.foldl (act n) (close t (input p), [])

/-- src/proclib/process.c:52 when the program has set `p.fds[0]` to -1, which `close` rejects. -/
def closeRest (t : Table) (p : Process) : Table := process_close t { p with fds := p.fds.drop 1 }

end Ulz.Closein

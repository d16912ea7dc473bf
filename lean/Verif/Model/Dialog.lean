import Verif.Model.Wait
/-! Talking to a process started with process_open (src/proclib/process.c, include/proclib.h:26-27: "use members fds[0-2] to access
    stdin, stdout, and stderr of the process (via write/read)"). The pipes are those of src/proclib/process.c:18: each holds a
    bounded number of bytes, writing to a full one and reading from an empty one block. Simplified: bytes are written by the caller
    and by the process one at a time; the process does not ignore SIGPIPE. -/
namespace Ulz.Dialog

/-- A caller and a process that copies its input to its output (`cat`; `awk` in the test program, src/proclib/process.c:63-76): what the
    caller has still to write to fds[0], the bytes in that pipe, those in the buffer of the process, those in the pipe to fds[1], and
    those the caller has read. The caller closes fds[0] when it has written all. -/
structure Copy where
  rest : List Byte
  input : List Byte
  buf : List Byte
  output : List Byte
  got : List Byte
  deriving DecidableEq, Repr

/-- One step of the caller or of the process. The pipes hold `c0` and `c1` bytes and the process reads up to `b` bytes at a time, as many
    as there are, and writes all of them before it reads again. The caller reads only when it has written all, or, if `poll`,
    whenever there is something to read. -/
inductive Copy.Step (c0 c1 b : Nat) (poll : Bool) : Copy → Copy → Prop
  | write {x r p q o g} : p.length < c0 → Step c0 c1 b poll ⟨x :: r, p, q, o, g⟩ ⟨r, p ++ [x], q, o, g⟩
  | take {r p o g} : p ≠ [] → Step c0 c1 b poll ⟨r, p, [], o, g⟩ ⟨r, p.drop b, p.take b, o, g⟩
  | give {r p x q o g} : o.length < c1 → Step c0 c1 b poll ⟨r, p, x :: q, o, g⟩ ⟨r, p, q, o ++ [x], g⟩
  | read {r p q x o g} : r = [] ∨ poll = true → Step c0 c1 b poll ⟨r, p, q, x :: o, g⟩ ⟨r, p, q, o, g ++ [x]⟩

/-- src/proclib/process.c:7-47: after process_open the pipes are empty. -/
def Copy.start (text : List Byte) : Copy := ⟨text, [], [], [], []⟩

/-- All was written and nothing is in a pipe or in the process: the process gets end of file and exits, and the caller gets end of file. -/
def Copy.Done (s : Copy) : Prop := s.rest = [] ∧ s.input = [] ∧ s.buf = [] ∧ s.output = []

/-- A process that writes to both its outputs, and a caller that reads fds[1] up to its end and then fds[2]: what the process has still to
    write (`true`: to standard error), the bytes in the pipes, whether the caller has seen the end of the first, and what it has
    read. -/
structure Both where
  todo : List (Bool × Byte)
  out : List Byte
  err : List Byte
  second : Bool
  got1 : List Byte
  got2 : List Byte
  deriving DecidableEq, Repr

/-- One step of the process or of the caller; the pipes hold `c1` and `c2` bytes. The end of a pipe is seen when it is empty and the
    process has exited, which it does when it has written all. -/
inductive Both.Step (c1 c2 : Nat) : Both → Both → Prop
  | out {x t o e m g h} : o.length < c1 → Step c1 c2 ⟨(false, x) :: t, o, e, m, g, h⟩ ⟨t, o ++ [x], e, m, g, h⟩
  | err {x t o e m g h} : e.length < c2 → Step c1 c2 ⟨(true, x) :: t, o, e, m, g, h⟩ ⟨t, o, e ++ [x], m, g, h⟩
  | read1 {t x o e g h} : Step c1 c2 ⟨t, x :: o, e, false, g, h⟩ ⟨t, o, e, false, g ++ [x], h⟩
  | eof1 {e g h} : Step c1 c2 ⟨[], [], e, false, g, h⟩ ⟨[], [], e, true, g, h⟩
  | read2 {t o x e g h} : Step c1 c2 ⟨t, o, x :: e, true, g, h⟩ ⟨t, o, e, true, g, h ++ [x]⟩

/-- src/proclib/process.c:7-47: after process_open the pipes are empty. -/
def Both.start (w : List (Bool × Byte)) : Both := ⟨w, [], [], false, [], []⟩

/-- Both ends have been seen. -/
def Both.Done (s : Both) : Prop := s.todo = [] ∧ s.out = [] ∧ s.err = [] ∧ s.second = true

/-- A process that writes to its standard output and exits, and a caller that reads some bytes and calls process_close: how many bytes the
    process has still to write, how many are in the pipe, how many the caller has still to read, whether fds[1] is closed, and how the
    process ended. -/
structure Leave where
  left : Nat
  pipe : Nat
  want : Nat
  closed : Bool
  fate : Option Wait.Fate

/-- One step of the process, which exits with `code`, or of the caller, who closes fds[1] (src/proclib/process.c:52) after the last byte
    it wants to read. Writing to a pipe that nobody can read from is SIGPIPE (signal 13). -/
inductive Leave.Step (c1 : Nat) (code : BitVec 32) : Leave → Leave → Prop
  | write {l p w} : p < c1 → Step c1 code ⟨l + 1, p, w, false, none⟩ ⟨l, p + 1, w, false, none⟩
  | sigpipe {l p w} : Step c1 code ⟨l + 1, p, w, true, none⟩ ⟨l + 1, p, w, true, some (.killed 13 false)⟩
  | exit {p w c} : Step c1 code ⟨0, p, w, c, none⟩ ⟨0, p, w, c, some (.exited code)⟩
  | read {l p w f} : Step c1 code ⟨l, p + 1, w + 1, false, f⟩ ⟨l, p, w, false, f⟩
  | close {l p f} : Step c1 code ⟨l, p, 0, false, f⟩ ⟨l, p, 0, true, f⟩

/-- src/proclib/process.c:7-47: after process_open the pipe is empty; the process will write `k` bytes, the caller will read `j`. -/
def Leave.start (k j : Nat) : Leave := ⟨k, 0, j, false, none⟩

/-- src/proclib/process.c:50-56: what process_close returns, once the descriptors are closed and waitpid has the fate of the process. -/
def Leave.result (retval : BitVec 32) (s : Leave) : Option (BitVec 32) :=
  if s.closed then s.fate.map fun f => Wait.process_close retval (some f) else none

end Ulz.Dialog

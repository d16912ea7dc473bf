import Verif.Model.Stringptr
/-! Model of src/proclib. A process is modelled by its descriptor table; the POSIX functions by their contracts, the
    answers they are free to give being parameters. -/
namespace Ulz.Proc

/-- What a descriptor may refer to: the read or write end of the pipe made by the i-th call of `pipe`, /dev/null, or
    anything else. -/
inductive Obj where
  | readEnd (i : Nat)
  | writeEnd (i : Nat)
  | devnull
  | other (n : Nat)
  deriving DecidableEq, Repr

/-- A descriptor table. -/
abbrev Table := Nat → Option Obj

/-- Change one entry. -/
def Table.set (t : Table) (fd : Nat) (o : Option Obj) : Table := fun f => if f = fd then o else t f

/-- POSIX `close`; closing what is not open has no effect. -/
def close (t : Table) (fd : Nat) : Table := t.set fd none

/-- What posix_spawn does in the child before it executes the program. -/
inductive Action where
  | close (fd : Nat)
  | dup2 (old new : Nat)
  deriving DecidableEq, Repr

/-- POSIX `posix_spawn`: performing the actions in order on a copy of the table; `none` if one fails (`dup2` of what is not
    open; closing what is not open is no failure). -/
def perform (t : Table) : List Action → Option Table
  | [] => some t
  | .close fd :: as => perform (close t fd) as
  | .dup2 a b :: as => match t a with
    | none => none
    | some o => perform (t.set b (some o)) as

/-- The answers of the system to process_open. `action k`: whether the k-th posix_spawn_file_actions_add... succeeds;
    `pipe i`: the descriptors (read end, write end) of the i-th pipe, `none` for failure; `spawn`: whether posix_spawnp
    could start the program, if all the actions succeed. -/
structure Answers where
  init : Bool
  action : Nat → Bool
  pipe : Nat → Option (Nat × Nat)
  spawn : Bool

/-- A loop of posix_spawn_file_actions_add... calls, the first of them being number `k`: the actions, and whether all succeeded. -/
def add (ans : Answers) (k : Nat) : (new fa : List Action) → List Action × Bool
  | [], fa => (fa, true)
  | a :: new, fa => if ans.action k then add ans (k + 1) new (fa ++ [a]) else (fa, false)

/-- src/proclib/process.c:19: `for(i..3) if(pipe(pipes[i])) goto spawn_error`, for the pipes `is`; the table, the array
    `pipes` and whether all succeeded. -/
def pipeLoop (ans : Answers) : (is : List Nat) → Table → List (Nat × Nat) → Table × List (Nat × Nat) × Bool
  | [], t, pipes => (t, pipes, true)
  | i :: is, t, pipes => match ans.pipe i with
    | none => (t, pipes, false)
    | some (r, w) => pipeLoop ans is ((t.set r (some (.readEnd i))).set w (some (.writeEnd i))) (pipes.set i (r, w))

/-- src/proclib/process.c:37-38: closing all descriptors of the array but zeros. -/
def closeAll : List (Nat × Nat) → Table → Table
  | [], t => t
  | (r, w) :: pipes, t =>
    let t := if r ≠ 0 then close t r else t
    let t := if w ≠ 0 then close t w else t
    closeAll pipes t

/-- include/proclib.h: struct process; the actions are those not destroyed yet. -/
structure Process where
  fds : List Nat
  fa : List Action
  deriving DecidableEq, Repr

/-- The result of process_open: the table, and for success the handle and the table of the child. -/
structure Result where
  table : Table
  success : Option (Process × Table)

/-- src/proclib/process.c:37-40. -/
def fail (pipes : List (Nat × Nat)) (t : Table) : C Result := pure ⟨closeAll pipes t, none⟩

/-- `pipes[i][pipeends[i]]`: the ends for the child (src/proclib/process.c:21). -/
def childEnd (pipes : List (Nat × Nat)) (i : Nat) : Nat := if i = 0 then (pipes.getD i (0, 0)).1 else (pipes.getD i (0, 0)).2

/-- `pipes[i][!pipeends[i]]`: the ends for the caller (src/proclib/process.c:23). -/
def parentEnd (pipes : List (Nat × Nat)) (i : Nat) : Nat := if i = 0 then (pipes.getD i (0, 0)).2 else (pipes.getD i (0, 0)).1

/-- src/proclib/process.c:7-47. If posix_spawn_file_actions_init fails, the object is destroyed without having been
    initialised, which POSIX leaves undefined (`badFree`). -/
def process_open (ans : Answers) (t : Table) : C Result :=
  let pipes := [(0, 0), (0, 0), (0, 0)]
  if !ans.init then .error .badFree
  else match add ans 0 [.close 0, .close 1, .close 2] [] with
  | (_, false) => fail pipes t
  | (fa, true) => match pipeLoop ans [0, 1, 2] t pipes with
    | (t, pipes, false) => fail pipes t
    | (t, pipes, true) => match add ans 3 [.dup2 (childEnd pipes 0) 0, .dup2 (childEnd pipes 1) 1, .dup2 (childEnd pipes 2) 2] fa with
      | (_, false) => fail pipes t
      | (fa, true) => match add ans 6 (pipes.flatMap fun p => [.close p.1, .close p.2]) fa with
        | (_, false) => fail pipes t
        | (fa, true) => match if ans.spawn then perform t fa else none with
          | none => fail pipes t
          | some child =>
            let t := close (close (close t (childEnd pipes 0)) (childEnd pipes 1)) (childEnd pipes 2)
            pure ⟨t, some (⟨[parentEnd pipes 0, parentEnd pipes 1, parentEnd pipes 2], fa⟩, child)⟩

/-- src/proclib/process.c:52: the descriptors process_close closes (waiting for the child and the exit status are not
    modelled). -/
def process_close (t : Table) (p : Process) : Table := p.fds.foldl close t

/-! ### daemonize -/

/-- POSIX: the lowest descriptor from `f` on that is not open, below the limit: `n` are left to look at. -/
def lowest (t : Table) : (n f : Nat) → Option Nat
  | 0, _ => none
  | n + 1, f => match t f with
    | none => some f
    | some _ => lowest t n (f + 1)

/-- POSIX `open` or `dup` with the limit `n`: the table and the descriptor, if there is one left. -/
def acquire (n : Nat) (t : Table) (o : Obj) : Table × Option Nat :=
  match lowest t n 0 with
  | none => (t, none)
  | some f => (t.set f (some o), some f)

/-- POSIX `dup`. -/
def dup (n : Nat) (t : Table) (fd : Option Nat) : Table :=
  match fd with
  | none => t
  | some f => match t f with
    | none => t
    | some o => (acquire n t o).1

/-- src/proclib/daemonize.c:22: `for (fd = getdtablesize(); fd >= 0; --fd) close(fd)`. -/
def closeDown (t : Table) : (fd : Nat) → Table
  | 0 => close t 0
  | fd + 1 => closeDown (close t (fd + 1)) fd

/-- What becomes of the caller of daemonize. -/
inductive Outcome where
  | exits (code : Int) (message : List Byte)
  | continues (t : Table)

/-- src/proclib/daemonize.c:11-24: `pid` is the answer of fork, `n` of getdtablesize, `null` whether /dev/null can be
    opened. The session is not modelled. -/
def daemonize (pid : Int) (n : Nat) (null : Bool) (t : Table) : Outcome :=
  if pid < 0 then .exits 1 (bytes! "fork error")
  else if pid > 0 then .exits 0 []
  else
    let t := closeDown t n
    let (t, fd) := if null then acquire n t .devnull else (t, none)
    .continues (dup n (dup n t fd) fd)

end Ulz.Proc

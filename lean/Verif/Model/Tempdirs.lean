import Verif.Model.Filelib
/-! Several processes that call `mktempdir` (src/filelib/mktempdir.c) at the same time in one file system.
    The only step of `mktempdir` that other processes notice is a call of `mkdir`, which is atomic (POSIX), so a
    process is given by what the calls of `mkdir` have answered so far. -/
namespace Ulz.Tempdirs
open Ulz.Filelib (World Mk mktempdir)

/-- A call of `mktempdir` in one process: the results of `rand` in that process, and the arguments. -/
structure Call where
  rand : Nat → Nat
  pre : List Byte
  buf : List Byte
  bufsize : Nat

/-- What a process does next: call `mkdir` for a path, return from `mktempdir` with this buffer and value, or
    something undefined. -/
inductive Next where
  | asks (path : List Byte)
  | ends (buf : List Byte) (ret : Nat)
  | bad (e : UB)

/-- `mktempdir` (the model of src/filelib/mktempdir.c:16-25) run with the answers `ans` of `mkdir`: if it makes one
    more call (here answered with success, so that its path is the last one made) then that is the next step. -/
def next (c : Call) (ans : List Mk) : Next :=
  match mktempdir (ans.length + 1) ⟨c.rand, fun n _ => ans.getD n .ok, 0, 0, []⟩ c.pre c.buf c.bufsize with
  | .error e => .bad e
  | .ok (w, b, n) => if ans.length < w.nmkdir then .asks (w.made.headD []) else .ends b n

/-- A process: its call, the answers so far, and whether it has removed its directory again. -/
structure Proc where
  call : Call
  ans : List Mk
  removed : Bool

/-- The system: the existing directories and the processes. -/
structure Sys where
  dirs : List (List Byte)
  procs : List Proc

/-- What can happen. -/
inductive Ev where
  /-- process `i` makes its next call of `mkdir`; `refuse`: an error other than EEXIST, if the path is free -/
  | call (i : Nat) (refuse : Bool)
  /-- process `i`, if its call has returned a directory, removes it -/
  | remove (i : Nat)
  /-- some other program makes a directory -/
  | other (path : List Byte)

/-- POSIX `mkdir`: EEXIST if the path exists. -/
def mkdir (dirs : List (List Byte)) (path : List Byte) (refuse : Bool) : Mk × List (List Byte) :=
  if path ∈ dirs then (.eexist, dirs) else if refuse then (.error, dirs) else (.ok, path :: dirs)

/-- One event. Events that are not possible have no effect. -/
def step (s : Sys) : Ev → Sys
  | .call i refuse =>
    match s.procs[i]? with
    | none => s
    | some p =>
      match next p.call p.ans with
      | .asks path =>
        let (a, dirs) := mkdir s.dirs path refuse
        ⟨dirs, s.procs.set i { p with ans := p.ans ++ [a] }⟩
      | _ => s
  | .remove i =>
    match s.procs[i]? with
    | none => s
    | some p =>
      match next p.call p.ans with
      | .ends b n => if n = 0 ∨ p.removed then s else ⟨s.dirs.erase (b.take n), s.procs.set i { p with removed := true }⟩
      | _ => s
  | .other path => { s with dirs := (mkdir s.dirs path false).2 }

/-- A schedule. -/
def run (s : Sys) : List Ev → Sys
  | [] => s
  | e :: es => run (step s e) es

end Ulz.Tempdirs

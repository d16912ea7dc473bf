import Verif.Model.Proc
/-! Several processes started with process_open (src/proclib/process.c) that run at the same time. The children are programs
    that read their standard input up to its end and then exit (`cat`, `sort`, `awk` in the test program), and leave other
    descriptors alone. Pipes have their own identity here: `pipe k i` is pipe `i` of process number `k`. -/
namespace Ulz.Family

/-- What a descriptor refers to: an end of a pipe, or anything else. -/
inductive Obj where
  | pipe (k i : Nat) (write : Bool)
  | other (n : Nat)
  deriving DecidableEq, Repr

/-- A descriptor table. -/
abbrev Table := Nat → Option Obj

/-- A process that was started: the descriptors of the handle, its own table, whether process_close has not returned for it
    yet, and whether it still runs. -/
structure Kid where
  fds : List Nat
  table : Table
  opened : Bool
  alive : Bool

/-- The caller's table and the processes in the order in which they were started. -/
structure Sys where
  table : Table
  kids : List Kid

/-- The table as process_open sees it, which does not look at what is behind a descriptor. -/
def hide (t : Table) : Proc.Table := fun f => (t f).map fun _ => .other f

/-- The table process number `n` or its caller has, from what process_open makes of a hidden table. -/
def reveal (n : Nat) (t : Table) (T : Proc.Table) : Table := fun f =>
  match T f with
  | some (.readEnd i) => some (.pipe n i false)
  | some (.writeEnd i) => some (.pipe n i true)
  | some (.other g) => t g
  | some .devnull => none
  | none => none

/-- src/proclib/process.c:7-47, called with other processes running; `none` if process_open fails. -/
def open_ (ans : Proc.Answers) (s : Sys) : C (Sys × Bool) := do
  let r ← Proc.process_open ans (hide s.table)
  let n := s.kids.length
  match r.success with
  | none => pure (⟨reveal n s.table r.table, s.kids⟩, false)
  | some (p, child) =>
    pure (⟨reveal n s.table r.table, s.kids ++ [⟨p.fds, reveal n s.table child, true, true⟩]⟩, true)

/-- A reader of pipe `i` of process `k` gets end of file: nobody has the write end. -/
def Eof (s : Sys) (k i : Nat) : Prop :=
  (∀ f, s.table f ≠ some (.pipe k i true)) ∧ ∀ kid ∈ s.kids, kid.alive = true → ∀ f, kid.table f ≠ some (.pipe k i true)

/-- Child `j` exits: at the end of its standard input. -/
inductive Exits : Sys → Sys → Prop
  | mk {s : Sys} {j : Nat} {kid : Kid} : s.kids[j]? = some kid → kid.alive = true → Eof s j 0 →
      Exits s ⟨s.table, s.kids.set j { kid with alive := false }⟩

/-- What happens while the caller waits. -/
inductive Star : Sys → Sys → Prop
  | refl {s} : Star s s
  | tail {s s' s''} : Star s s' → Exits s' s'' → Star s s''

/-- src/proclib/process.c:52: the descriptors are closed. -/
def closeFds (s : Sys) (fds : List Nat) : Sys := ⟨fun f => if f ∈ fds then none else s.table f, s.kids⟩

/-- src/proclib/process.c:50-56: process_close returns when child `k` has exited. -/
inductive Closes : Sys → Nat → Sys → Prop
  | mk {s s' : Sys} {k : Nat} {kid kid' : Kid} : s.kids[k]? = some kid → kid.opened = true → Star (closeFds s kid.fds) s' →
      s'.kids[k]? = some kid' → kid'.alive = false → Closes s k ⟨s'.table, s'.kids.set k { kid' with opened := false }⟩

end Ulz.Family

import Verif.Model.Handles
/-! What a list of system calls means for the open descriptors and the memory of the process. -/
namespace Ulz.Handles.Spec
open Ulz.Handles

/-- The descriptors that were opened and are still open after the calls, with their close-on-exec flags; `close` closes all that have the
    number. -/
def held : List Ev → List (Nat × Bool) → List (Nat × Bool)
  | [], l => l
  | .open d c :: t, l => held t ((d, c) :: l)
  | .close d :: t, l => held t (l.filter (·.1 ≠ d))
  | _ :: t, l => held t l

/-- The descriptor a call works on. -/
def on : Ev → Option Nat
  | .read d | .write d | .seek d | .close d => some d
  | _ => none

/-- Every read, write, seek and close works on a descriptor that was opened before in the same list, and not closed since. -/
def UsesOwn (t : List Ev) : Prop := ∀ pre e post, t = pre ++ e :: post → ∀ d, on e = some d → ∃ c, (d, c) ∈ held pre []

/-- The descriptors a program gets that another thread starts (fork and exec) after the calls `pre`. -/
def inherited (pre : List Ev) : List Nat := ((held pre []).filter (·.2 = false)).map (·.1)

/-- Blocks of memory allocated and not freed. -/
def blocks (t : List Ev) : Int := (t.count .malloc : Int) - t.count .free

end Ulz.Handles.Spec

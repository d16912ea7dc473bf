import Verif.Model.Saveread
import Verif.Spec.Stringptr
/-! Specification for reading a file while it is saved. -/
namespace Ulz.Saveread.Spec
open Ulz.Saveread
open Ulz.Stringptr (SP)
open Ulz.Stringptr.Spec (Holds)

/-- A file with the content `old`; one process is about to save `c` to it, another to read it. -/
def start (old c : List Byte) : Sys := ⟨⟨old, [⟨c, none⟩]⟩, .idle⟩

/-- The first `q` bytes of one text, and then what the other has up to place `n`. -/
def mix (old c : List Byte) (q n : Nat) : List Byte := old.take q ++ (c.drop q).take (n - q)

/-- After this schedule the call has returned a string with the text `t`. -/
def Reads (old c : List Byte) (es : List Ev) (t : List Byte) : Prop :=
  ∃ s p, run (start old c) es = .ok s ∧ s.reader = .done (some p) ∧ Holds p t

/-- No `read` is cut short by the system before 64 KiB or the end of the file. -/
def Whole (es : List Ev) : Prop := ∀ k, Ev.read (some k) ∈ es → 65536 ≤ k

/-- No `read` fails, and there is memory. -/
def Good (es : List Ev) : Prop := Ev.read none ∉ es ∧ Ev.opens none ∉ es

/-- The call has returned. -/
def Ended (s : Sys) : Prop := ∃ r, s.reader = .done r

end Ulz.Saveread.Spec

import Verif.Model.Fpio
import Verif.Spec.Fileparser
/-! Specification for the line reader under an arbitrary system. -/
namespace Ulz.Fpio.Spec
open Ulz.Fileparser

/-- A client that calls the function once for each answer of the system; what it sees of each call: the first `len` bytes of its
    buffer and the returned value. -/
def run (bufsize : Nat) : List Ans → Fd → FP → List Byte → C (List (List Byte × Int) × Fd × FP)
  | [], f, p, _ => pure ([], f, p)
  | a :: as, f, p, buf => do
    let (f, p, buf, r) ← readline_userbuf a f p buf bufsize
    let line ← rdN buf 0 p.len
    let (ls, f, p) ← run bufsize as f p buf
    pure ((line, r) :: ls, f, p)

/-- The answers of a system that always delivers `n` bytes if there are that many, and in which no call fails. -/
def Good (n : Nat) (a : Ans) : Prop := (∃ k, n ≤ k + 1 ∧ a.r = .upTo k) ∧ a.s = none

end Ulz.Fpio.Spec

import Verif.Model.Tempdirs
/-! Specification: who owns which directory. -/
namespace Ulz.Tempdirs.Spec
open Ulz.Filelib (Mk)

/-- The directory a process owns: the one `mktempdir` returned, until it is removed. -/
def owned (p : Proc) : List (List Byte) :=
  match next p.call p.ans with
  | .ends b n => if n = 0 ∨ p.removed then [] else [b.take n]
  | _ => []

/-- All directories owned by processes. -/
def allOwned (ps : List Proc) : List (List Byte) := ps.flatMap owned

/-- The calls start with no answers; each prefix is a C string, each buffer has the given size. -/
def Start (ps : List Proc) : Prop :=
  ∀ p ∈ ps, p.ans = [] ∧ p.removed = false ∧ p.call.bufsize ≤ p.call.buf.length ∧
    ∃ t junk, p.call.pre = t ++ 0 :: junk ∧ (0 : Byte) ∉ t

/-- The directories other programs make in a schedule. -/
def others : List Ev → List (List Byte)
  | [] => []
  | .other d :: es => d :: others es
  | _ :: es => others es

/-- The `j`-th name a sequence of random numbers gives. -/
def name (rand : Nat → Nat) (j : Nat) : List Byte :=
  (List.range 6).map fun t =>
    (bytes! "0123456789ABCDEFGHIJKLMNOPQRSTUVWXYZabcdefghijklmnopqrstuvwxyz").getD (rand (6 * j + t) % 62) 0

end Ulz.Tempdirs.Spec

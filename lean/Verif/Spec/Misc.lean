import Verif.Model.Misc
import Verif.Spec.Optparser
/-! Specification for op_printall, the stdio replacements and descriptors. -/
namespace Ulz.Misc.Spec

/-- Each argument followed by a newline. -/
def lines : List (List Byte) → List Byte
  | [] => []
  | a :: as => a ++ bytes! "\n" ++ lines as

/-- ISO C `puts(s)`: the string and a newline on standard output. -/
def puts (s : List Byte) : List (Int × List Byte) := [(1, s ++ bytes! "\n")]

/-- ISO C `perror(s)`: if `s` is not null and not empty, it and a colon and a space; then the message and a newline, on
    standard error. -/
def perror (s : Option (List Byte)) (msg : List Byte) : List (Int × List Byte) :=
  match s with
  | none => [(2, msg ++ bytes! "\n")]
  | some s => [(2, (if s = [] then [] else s ++ bytes! ": ") ++ msg ++ bytes! "\n")]

/-- Literals at the same address have the same content. -/
def LitEq (eq : List Byte → List Byte → Bool) : Prop := ∀ a b, eq a b = true → a = b

/-- POSIX: a new descriptor is the lowest one that is not open. -/
def Lowest (pick : List Nat → Nat) : Prop := ∀ fds, pick fds ∉ fds ∧ ∀ d < pick fds, d ∈ fds

end Ulz.Misc.Spec

import Verif.Model.Writes
import Verif.Spec.Output
/-! Specification for output through `write`. -/
namespace Ulz.Writes.Spec

/-- What arrives at the descriptor: each call writes as many of its bytes as it likes, in order; it fails if it writes none. -/
inductive Arrives : Calls → List Byte → Prop
  | nil : Arrives [] []
  | cons {c cs out} (n : Nat) : Arrives cs out → Arrives (c :: cs) (c.take n ++ out)

/-- `zs` contains the calls `xs` of one process and `ys` of another, each in their order. -/
inductive Interleaved : Calls → Calls → Calls → Prop
  | nil : Interleaved [] [] []
  | left {x xs ys zs} : Interleaved xs ys zs → Interleaved (x :: xs) ys (x :: zs)
  | right {y xs ys zs} : Interleaved xs ys zs → Interleaved xs (y :: ys) (y :: zs)

/-- What two processes that write to the same file may produce, if each call writes all its bytes at once. -/
def Together (xs ys : Calls) (out : List Byte) : Prop := ∃ zs, Interleaved xs ys zs ∧ out = zs.flatten

end Ulz.Writes.Spec

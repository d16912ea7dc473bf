import Verif.Model.Iter
/-! Specification for loops that delete from the list they go through. -/
namespace Ulz.Iter.Spec

/-- The items a loop goes through that steps over the item after one it deletes. -/
def visited (p : List Byte → Bool) : List (List Byte) → List (List Byte)
  | [] => []
  | [x] => [x]
  | x :: y :: ys => if p x then x :: visited p ys else x :: visited p (y :: ys)

/-- What such a loop leaves of a list when it deletes the items with `p`. -/
def leftover (p : List Byte → Bool) : List (List Byte) → List (List Byte)
  | [] => []
  | [x] => if p x then [] else [x]
  | x :: y :: ys => if p x then y :: leftover p ys else x :: leftover p (y :: ys)

/-- Two neighbouring items both have `p`. -/
def Adjacent (p : List Byte → Bool) (xs : List (List Byte)) : Prop :=
  ∃ i, ∃ h : i + 1 < xs.length, p xs[i] = true ∧ p xs[i + 1] = true

/-- The `n`-th generation of a work list: the items made from those of the generation before. -/
def level (g : List Byte → List (List Byte)) : Nat → List (List Byte) → List (List Byte)
  | 0, xs => xs
  | n + 1, xs => level g n (xs.flatMap g)

/-- The first `n` generations, one after the other. -/
def generations (g : List Byte → List (List Byte)) : Nat → List (List Byte) → List (List Byte)
  | 0, _ => []
  | n + 1, xs => xs ++ generations g n (xs.flatMap g)

end Ulz.Iter.Spec

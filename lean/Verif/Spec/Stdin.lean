import Verif.Model.Stdin
/-! Specification: the pieces of a text. -/
namespace Ulz.Stdin.Spec

/-- A piece as `fgets` delivers it with room for `k` characters, `rest` being what follows: not empty, at most `k` characters, a newline
    at most at its end, and shorter than `k` without a newline only at the end of the text. -/
def Piece (k : Nat) (p rest : List Byte) : Prop :=
  p ≠ [] ∧ p.length ≤ k ∧ ch '\n' ∉ p.dropLast ∧ (p.length < k → p.getLast? = some (ch '\n') ∨ rest = [])

/-- A text cut into such pieces. -/
inductive Pieces (k : Nat) : List Byte → List (List Byte) → Prop
  | nil : Pieces k [] []
  | cons {p rest ps} : Piece k p rest → Pieces k rest ps → Pieces k (p ++ rest) (p :: ps)

/-- The string at the start of a piece: it ends at the first zero byte. -/
def str (p : List Byte) : List Byte := p.takeWhile (· ≠ 0)

/-- Lines, each followed by a newline. -/
def unlines (ls : List (List Byte)) : List Byte := (ls.map (· ++ [ch '\n'])).flatten

end Ulz.Stdin.Spec

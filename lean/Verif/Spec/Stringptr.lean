import Verif.Model.Stringptr
/-! Specification vocabulary for stringptr, stringptrlist and kvlist. -/
namespace Ulz.Stringptr.Spec

/-- The stringptr `p` holds the text `s`: its size is that of `s`, and `s` is what its pointer points to. -/
def Holds (p : SP) (s : List Byte) : Prop := p.size = s.length ∧ s <+: p.buf

/-- The entries of a list hold the texts, one by one. -/
inductive HoldsAll : List SP → List (List Byte) → Prop
  | nil : HoldsAll [] []
  | cons {p s l ss} : Holds p s → HoldsAll l ss → HoldsAll (p :: l) (s :: ss)

/-- One step of the System V ELF (PJW) hash: shift in four bits and fold the top four of 32 bits back. -/
def elfStep (h : Nat) (c : Byte) : Nat :=
  let t := (16 * h + c.toNat) % 2^32
  t % 2^28 ^^^ t / 2^28 * 16

/-- The ELF hash of a text. -/
def elfHash (s : List Byte) : Nat := s.foldl elfStep 0

/-- Joining texts with a separator between them. -/
def join (sep : List Byte) : List (List Byte) → List Byte
  | [] => []
  | [x] => x
  | x :: xs => x ++ sep ++ join sep xs

/-- Splitting at the leftmost non-overlapping occurrences of `d`. -/
inductive Split (d : List Byte) : List Byte → List (List Byte) → Prop
  | last {s} : ¬ d <:+: s → Split d s [s]
  | cons {p rest ps} : (∀ k, k < p.length → ¬ d <+: (p ++ d ++ rest).drop k) → Split d rest ps →
      Split d (p ++ d ++ rest) (p :: ps)

/-- The pieces of `buf` with these offsets and lengths have the contents `cs`, one by one, and each is
    followed by a zero byte. -/
inductive Slices (buf : List Byte) : List Piece → List (List Byte) → Prop
  | nil : Slices buf [] []
  | cons {p : Piece} {c ps cs} : p.2 = c.length → (buf.drop p.1).take (p.2 + 1) = c ++ [0] → Slices buf ps cs →
      Slices buf (p :: ps) (c :: cs)

/-- The members of a list whose number (counting from `k`) satisfies `ok`. -/
def keep {α : Type} (ok : Nat → Bool) (k : Nat) : List α → List α
  | [] => []
  | x :: xs => if ok k then x :: keep ok (k + 1) xs else keep ok (k + 1) xs

end Ulz.Stringptr.Spec

import Verif.Model.Codedup
import Verif.Spec.Numbers
/-! Specification for codedup: repeated blocks of lines. -/
namespace Ulz.Codedup.Spec

/-- The `len` lines from line `i` on are the same as those from line `j` on. -/
def Same (L : List (List Byte)) (i j len : Nat) : Prop := ∀ k < len, L[i + k]? = L[j + k]?

/-- Two equal blocks of `len` lines inside the text, the one at `j` beginning after the end of the one at `i`. -/
def Dup (L : List (List Byte)) (i j len : Nat) : Prop := i + len ≤ j ∧ j + len ≤ L.length ∧ Same L i j len

/-- Equal blocks that cannot be made longer. -/
def Maximal (L : List (List Byte)) (i j len : Nat) : Prop := Dup L i j len ∧ ¬ Dup L i j (len + 1)

/-- One entry of the output: a block of `len` lines at `line`, and where it is repeated. -/
structure Report where
  len : Nat
  line : Nat
  copies : List Nat

/-- Numbers with a comma and a space between them. -/
def commas : List Nat → List Byte
  | [] => []
  | [n] => Numbers.Spec.dec n
  | n :: m :: ns => Numbers.Spec.dec n ++ bytes! ", " ++ commas (m :: ns)

/-- The text of an entry; lines are numbered from `start`. -/
def render (L : List (List Byte)) (start : Nat) (r : Report) : List Byte :=
  bytes! "[DUP] " ++ Numbers.Spec.dec r.len ++ bytes! " lines at " ++ Numbers.Spec.dec (start + r.line) ++ bytes! ": " ++
    Numbers.Spec.dec r.copies.length ++ bytes! " dupes (" ++ commas (r.copies.map (start + ·)) ++ bytes! ")\n" ++
    ((L.drop r.line).take r.len).flatMap (· ++ bytes! "\n")

/-- The lines of a file: those of up to 1022 bytes with their newline behind them; pieces of 1023 bytes of longer ones; the last
    one may lack its newline. -/
def Lines (f : List Byte) : List (List Byte) → Prop
  | [] => f = []
  | l :: K => ch '\n' ∉ l ∧
    ((l.length ≤ 1022 ∧ ∃ f', f = l ++ bytes! "\n" ++ f' ∧ Lines f' K) ∨
     (l.length = 1023 ∧ ∃ f', f = l ++ f' ∧ Lines f' K) ∨
     (l.length ≤ 1022 ∧ l ≠ [] ∧ f = l ∧ K = []))

/-- White space of the C locale. -/
def space (c : Byte) : Bool := c = ch ' ' ∨ (9 ≤ c.toNat ∧ c.toNat ≤ 13)

/-- The lines that are looked at, for the options -s and -e. -/
def used (start : Nat) (stop : Option Nat) (L : List (List Byte)) : List (List Byte) :=
  match stop with
  | none => L.drop start
  | some e => (L.take (e - 1)).drop start

/-- What is compared and printed of a line: what is before its first zero byte, with -w without its leading white space. -/
def text (w : Bool) (l : List Byte) : List Byte :=
  if w then (l.takeWhile (· ≠ 0)).dropWhile space else l.takeWhile (· ≠ 0)

/-- With -w: the first character that is not white space is one that `isspace` must not be called with. -/
def Bad (w : Bool) (l : List Byte) : Prop :=
  w = true ∧ ∃ c rest, l.dropWhile space = c :: rest ∧ 128 ≤ c.toNat ∧ c.toNat < 255

/-- `hbmap_foreach` visits every entry once, in some order. -/
def Visits (ord : Map → Map) : Prop := ∀ m, (ord m).Perm m

end Ulz.Codedup.Spec

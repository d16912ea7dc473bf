import Verif.Model.Format
import Verif.Spec.Numbers
/-! Specification of formatted printing: formats as lists of items, and the text each item stands for. -/
namespace Ulz.Format.Spec
open Numbers.Spec

/-- The conversions. -/
inductive Kind where
  | pct | s | c | d | u | x | X | p | ld | lu | lld | llu | zd | zu
  deriving DecidableEq, Repr

/-- How a conversion is written behind the `%` and the precision. -/
def Kind.spell : Kind → List Byte
  | pct => bytes! "%" | s => bytes! "s" | c => bytes! "c" | d => bytes! "d" | u => bytes! "u" | x => bytes! "x" | X => bytes! "X"
  | p => bytes! "p" | ld => bytes! "ld" | lu => bytes! "lu" | lld => bytes! "lld" | llu => bytes! "llu" | zd => bytes! "zd" | zu => bytes! "zu"

/-- An item of a format: a literal character, or a conversion with its precisions (usually none or one), each the list of its
    decimal digits. -/
inductive Item where
  | lit (c : Byte)
  | conv (precs : List (List Nat)) (k : Kind)
  deriving DecidableEq, Repr

def digit (d : Nat) : Byte := BitVec.ofNat 8 (48 + d)

def spellPrecs (ps : List (List Nat)) : List Byte := (ps.map fun ds => ch '.' :: ds.map digit).flatten

def Item.spell : Item → List Byte
  | lit c => [c]
  | conv ps k => ch '%' :: (spellPrecs ps ++ k.spell)

/-- The format string an item list is written as. -/
def spell (is : List Item) : List Byte := (is.map Item.spell).flatten

/-- Precisions are not empty and have decimal digits. -/
def PrecsOk (ps : List (List Nat)) : Prop := ∀ ds ∈ ps, ds ≠ [] ∧ ∀ d ∈ ds, d < 10

def Item.Ok : Item → Prop
  | lit c => c ≠ 0 ∧ c ≠ ch '%'
  | conv ps _ => PrecsOk ps

/-- Digits behind the first count ten times the number of digits still following. -/
def weigh : List Nat → Nat
  | [] => 0
  | d :: ds => d * (10 * ds.length) + weigh ds

/-- The width a precision is taken as. -/
def width : List Nat → Nat
  | [] => 0
  | d :: ds => (d + weigh ds) % 2 ^ 64

/-- The width in force at a conversion: that of the last precision given with it, else the one left over from before. -/
def pend (ps : List (List Nat)) (w : Nat) : Nat :=
  match ps.getLast? with
  | some ds => width ds
  | none => w

/-- The `w` lowest digits of `n` in base `b`, most significant first. -/
def padded (b w n : Nat) : List Nat := (List.range w).reverse.map fun i => n / b ^ i % b

/-- The text of a number: its sign and all its digits, or exactly `w` digits if the width `w` is not 0. -/
def numText (b : Nat) (hb : 2 ≤ b) (lower : Bool) (w : Nat) (x : Int) : List Byte :=
  (if x < 0 then [ch '-'] else []) ++ (if w = 0 then digitsOf b x.natAbs hb else padded b w x.natAbs).map (symbol lower)

/-- Number printed by a conversion for an argument: value, base 16 or not, lower case or not. `none` if the argument has not the
    type the conversion needs. -/
def number : Kind → Arg → Option (Int × Bool × Bool)
  | .d, .int v => some (v.toInt, false, false)
  | .u, .int v => some (v.toNat, false, false)
  | .x, .int v => some (if v.toInt < 0 then v.toInt + 2 ^ 64 else v.toInt, true, true)
  | .X, .int v => some (if v.toInt < 0 then v.toInt + 2 ^ 64 else v.toInt, true, false)
  | .p, .long v => some (v.toNat, true, false)
  | .ld, .long v | .lld, .long v | .zd, .long v => some (v.toInt, false, false)
  | .lu, .long v | .llu, .long v | .zu, .long v => some (v.toNat, false, false)
  | _, _ => none

/-- What printing does: the text, the text up to the point of failure, or undefined behaviour. -/
inductive Outcome where
  | text (t : List Byte)
  | fail (t : List Byte)
  | undef
  deriving DecidableEq, Repr

def Outcome.prepend (t : List Byte) : Outcome → Outcome
  | text u => text (t ++ u)
  | fail u => fail (t ++ u)
  | undef => undef

/-- What one conversion does with the arguments, `w` being the width in force: its text, the width left over for the next
    conversions and the arguments left over; failure; or undefined behaviour. Only numbers use the width up. -/
inductive Piece where
  | text (t : List Byte) (w : Nat) (args : List Arg)
  | fail
  | undef

def convText (w : Nat) : Kind → List Arg → Piece
  | .pct, args => .text [ch '%'] w args
  | .s, .str none :: _ => .fail
  | .s, .str (some b) :: args => if 0 ∈ b then .text (cstr b) w args else .undef
  | .s, _ => .undef
  | .c, .int v :: args => .text (if v.setWidth 8 = 0 then [] else [v.setWidth 8]) w args
  | .c, _ => .undef
  | _, [] => .undef
  | k, arg :: args =>
    match number k arg with
    | none => .undef
    | some (x, hex, lower) =>
      -- 32 bytes are reserved for sign, digits and terminator
      if (if x < 0 then 1 else 0) + w + 1 ≤ 32 then
        .text (if hex then numText 16 (by decide) lower w x else numText 10 (by decide) lower w x) 0 args
      else .undef

/-- What printing the items does; `bad` says that an unsupported conversion follows them. -/
def render : (w : Nat) → List Item → (bad : Bool) → List Arg → Outcome
  | _, [], bad, _ => if bad then .fail [] else .text []
  | w, .lit c :: is, bad, args => (render w is bad args).prepend [c]
  | w, .conv ps k :: is, bad, args =>
    match convText (pend ps w) k args with
    | .text t w args => (render w is bad args).prepend t
    | .fail => .fail []
    | .undef => .undef

def isDigit (c : Byte) : Prop := ch '0' ≤ c ∧ c ≤ ch '9'

/-- Unsupported conversions: what may stand behind a `%` (the terminator of the format included) to make printing fail. -/
inductive Bad : List Byte → Prop where
  | char {c : Byte} {r : List Byte} : c ∉ bytes! "%.scdlzpuxX" → Bad (c :: r)
  | dot {c : Byte} {r : List Byte} : ¬ isDigit c → Bad (ch '.' :: c :: r)
  | l {c : Byte} {r : List Byte} : c ∉ bytes! "ldu" → Bad (ch 'l' :: c :: r)
  | ll {c : Byte} {r : List Byte} : c ∉ bytes! "du" → Bad (ch 'l' :: ch 'l' :: c :: r)
  | z {c : Byte} {r : List Byte} : c ∉ bytes! "du" → Bad (ch 'z' :: c :: r)
  | prec {ds : List Nat} {c : Byte} {r : List Byte} : ds ≠ [] → (∀ d ∈ ds, d < 10) → ¬ isDigit c → Bad (c :: r) →
      Bad (ch '.' :: ds.map digit ++ c :: r)

/-- A format is written as the items, or as the items followed by an unsupported conversion. -/
def Parses (s : List Byte) (is : List Item) (bad : Bool) : Prop :=
  (∀ i ∈ is, i.Ok) ∧ if bad then ∃ t, s ++ [0] = spell is ++ ch '%' :: t ∧ Bad t else s = spell is

/-- The destination (`none`: NULL) of `size` bytes and the return value for an outcome. An empty object has no room for the
    terminator. -/
def Result (dest : Option (List Byte)) (size : Nat) : Outcome → C (Option (List Byte) × Int) → Prop
  | .text t, r =>
    match dest with
    | none => r = .ok (none, t.length)
    | some b =>
      if b = [] then r = .error .oobWrite
      else r = .ok (some (put b 0 (t.take (size - 1) ++ [0])), ((min t.length (size - 1) : Nat) : Int))
  | .fail t, r => r = .ok (dest.map fun b => put b 0 (t.take (size - 1)), -1)
  | .undef, r => ∃ u, r = .error u

/-- The destination is an object of at least `size` bytes, or NULL. -/
def DestOk (d : Option (List Byte)) (size : Nat) : Prop := ∀ b, d = some b → size ≤ b.length

/-- The type of argument a conversion needs, a string being terminated. -/
def Fits : Kind → Arg → Prop
  | .s, .str (some b) => 0 ∈ b
  | .c, .int _ | .d, .int _ | .u, .int _ | .x, .int _ | .X, .int _ => True
  | .p, .long _ | .ld, .long _ | .lu, .long _ | .lld, .long _ | .llu, .long _ | .zd, .long _ | .zu, .long _ => True
  | _, _ => False

/-- The arguments are those the items need, in order (more may follow). -/
def WellTyped : List Item → List Arg → Prop
  | [], _ => True
  | .lit _ :: is, args => WellTyped is args
  | .conv _ .pct :: is, args => WellTyped is args
  | .conv _ k :: is, a :: args => Fits k a ∧ WellTyped is args
  | .conv _ _ :: _, [] => False

/-- Every precision has one digit. -/
def OneDigit (is : List Item) : Prop := ∀ ps k, Item.conv ps k ∈ is → ∀ ds ∈ ps, ∃ d, d < 10 ∧ ds = [d]

end Ulz.Format.Spec

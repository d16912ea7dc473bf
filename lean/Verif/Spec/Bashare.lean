import Verif.Model.Bashare
/-! Specification: bits, and threads that do not get in each other's way. -/
namespace Ulz.Bashare.Spec

/-- Bit number `y` of an array. -/
def bitOf (x : List Byte) (y : Nat) : Bool := ((x[y / 8]?).getD 0).getLsbD (y % 8)

/-- The bits after some calls. -/
def final (f : Nat → Bool) : List Op → Nat → Bool
  | [] => f
  | .set y c :: os => final (fun z => if z = y then c else f z) os
  | .get _ :: os => final f os

/-- What the calls give. -/
def answers (f : Nat → Bool) : List Op → List Bool
  | [] => []
  | .set y c :: os => answers (fun z => if z = y then c else f z) os
  | .get y :: os => f y :: answers f os

/-- The bit that a call uses. -/
def index : Op → Nat
  | .set y _ => y
  | .get y => y

/-- Some call sets the bit `y`. -/
def SetsBit (ops : List Op) (y : Nat) : Prop := ∃ c, Op.set y c ∈ ops

/-- Some call sets a bit of the byte `b`. -/
def SetsByte (ops : List Op) (b : Nat) : Prop := ∃ y, y / 8 = b ∧ SetsBit ops y

/-- Some call, when the thread is alone with the array, gives a bit of the byte `b` another value than it had. -/
def Changes (f : Nat → Bool) (ops : List Op) (b : Nat) : Prop :=
  ∃ before y c after, ops = before ++ .set y c :: after ∧ y / 8 = b ∧ final f before y ≠ c

/-- All bits are in the array, and no thread uses a bit that another one sets. -/
structure Fair (x : List Byte) (prog : Nat → List Op) : Prop where
  inside : ∀ t, ∀ o ∈ prog t, index o < 8 * x.length
  apart : ∀ t u, t ≠ u → ∀ y, SetsBit (prog t) y → ∀ o ∈ prog u, index o ≠ y

/-- Every thread has got, and has made of the bits that no other thread sets, what it would if it were alone with the array. -/
def Right (x : List Byte) (prog : Nat → List Op) (s : St) : Prop :=
  ∀ t, ∃ done, prog t = done ++ (s.th t).calls ∧ (s.th t).out = answers (bitOf x) done ∧
    ∀ y, (∀ u, u ≠ t → ¬SetsBit (prog u) y) → bitOf s.arr y = final (bitOf x) done y

end Ulz.Bashare.Spec

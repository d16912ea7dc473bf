import Verif.Spec.Output
/-! The order of calendar times and of texts. -/
namespace Ulz.Stamps.Spec

/-- A calendar time. -/
structure When where
  year : Int
  mon : Nat
  mday : Nat
  hour : Nat
  min : Nat
  sec : Nat
  deriving DecidableEq

/-- What localtime_r stores for it. -/
def When.Is (w : When) (tm : Output.Tm) : Prop := Output.Spec.IsTm tm w.year w.mon w.mday w.hour w.min w.sec

/-- Earlier: the first of year, month, day, hour, minute and second that differs is smaller. -/
def When.before (a b : When) : Prop :=
  a.year < b.year ∨ a.year = b.year ∧ (a.mon < b.mon ∨ a.mon = b.mon ∧ (a.mday < b.mday ∨ a.mday = b.mday ∧ (a.hour < b.hour ∨ a.hour = b.hour ∧
    (a.min < b.min ∨ a.min = b.min ∧ a.sec < b.sec))))

/-- The order in which `sort` and strcmp put texts: the first byte that differs is smaller, or the text ends. -/
def sortsBefore : List Byte → List Byte → Prop
  | _, [] => False
  | [], _ :: _ => True
  | x :: s, y :: t => x.toNat < y.toNat ∨ x = y ∧ sortsBefore s t

end Ulz.Stamps.Spec

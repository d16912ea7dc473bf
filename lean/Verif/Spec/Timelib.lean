import Verif.Model.Timelib
/-! Specification of time arithmetic. -/
namespace Ulz.Timelib.Spec

/-- The nanoseconds of a `timespec`. -/
def ns (t : Time) : Int := t.sec * 1000000000 + t.frac
/-- The microseconds of a `timeval`. -/
def us (t : Time) : Int := t.sec * 1000000 + t.frac

/-- A normalized time, with `unit` parts to the second. -/
def Normal (unit : Int) (t : Time) : Prop := 0 ≤ t.frac ∧ t.frac < unit

/-- A time that nanosleep accepts. -/
def Duration (t : Time) : Prop := 0 ≤ t.sec ∧ Normal 1000000000 t

/-- What POSIX promises of an interruption: the time remaining is a duration. -/
def AnsOk : Ans → Prop
  | .eintr rem => Duration rem
  | _ => True

/-- The nanoseconds slept in a call with the given request: all, the request less the remaining time, or none. -/
def slept (req : Time) : Ans → Int
  | .done => ns req
  | .eintr rem => ns req - ns rem
  | .err => 0

def total (tr : List (Time × Ans)) : Int := (tr.map fun p => slept p.1 p.2).foldr (· + ·) 0

/-- Fits a 64-bit signed integer. -/
def In64 (x : Int) : Prop := -9223372036854775808 ≤ x ∧ x ≤ 9223372036854775807

instance (x : Int) : Decidable (In64 x) := inferInstanceAs (Decidable (_ ∧ _))

end Ulz.Timelib.Spec

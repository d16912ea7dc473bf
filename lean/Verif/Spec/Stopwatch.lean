import Verif.Spec.Timelib
/-! Specification of measuring time. A moment is a number of nanoseconds since the epoch. -/
namespace Ulz.Stopwatch.Spec
open Timelib Timelib.Spec

/-- A clock that shows the moment `m`, rounded down to microseconds. -/
def Shows (t : Time) (m : Int) : Prop := Normal 1000000 t ∧ us t = m / 1000

/-- Readings of a clock that is not set back. -/
def Forward : Time → List (Time × Time) → Prop
  | _, [] => True
  | t, (a, b) :: cs => (Normal 1000000 a ∧ Normal 1000000 b ∧ us t ≤ us a ∧ us a ≤ us b) ∧ Forward b cs

/-- The last reading inside a round. -/
def lastReading (t : Time) : List (Time × Time) → Time
  | [] => t
  | [(a, _)] => a
  | (_, b) :: c :: cs => lastReading b (c :: cs)

/-- The microseconds between the two readings of the rounds but the last, which no lap contains. -/
def gaps : List (Time × Time) → Int
  | [] => 0
  | [_] => 0
  | (a, b) :: c :: cs => us b - us a + gaps (c :: cs)

/-- A year from 0 to 290000 or so: no sum or difference of such times overflows. -/
def Sane (t : Time) : Prop := 0 ≤ t.sec ∧ t.sec ≤ 9223372036853

end Ulz.Stopwatch.Spec

import Verif.Model.Timelib
import Verif.Model.Wholefile
/-! Model of src/timelib/gettimestamp.c and src/filelib/getfilemodtime.c, and of programs that measure time with them. -/
namespace Ulz.Stopwatch
open Timelib

/-- src/timelib/gettimestamp.c:3-5: what is stored in `*t`; `clock` is what gettimeofday gives. -/
def gettimestamp (clock : Time) : Time := clock

/-- src/filelib/getfilemodtime.c:4-9: `st` is the modification time found by `stat`, `none` if that fails. -/
def getFileModTime (st : Option Int) : Int :=
  match st with
  | some m => m
  | none => 0

/-- A stopwatch with laps, as a program writes it with src/timelib/gettimestamp.c:3-5 and src/timelib/mspassed.c:6-11:
    `gettimestamp(&t); for(...) { work(); sum += mspassed(&t); gettimestamp(&t); }`. The clock is read twice in a round; the list
    holds what the two readings of each round give. -/
def lapLoop (t : Time) (sum : Int) : List (Time × Time) → C Int
  | [] => pure sum
  | (a, b) :: cs => do
    let m ← mspassed a t
    let sum ← Numbers.i64 (sum + m)
    lapLoop (gettimestamp b) sum cs

/-- A wait with a limit: `while(mspassed(&t) < limit) poll();`, src/timelib/mspassed.c:6-11. The list holds the readings of the
    clock; if they run out, the program is still waiting. Result: the rounds. -/
def waitLoop (t : Time) (limit : Int) : List Time → C Nat
  | [] => .error .hang
  | now :: cs => do
    let m ← mspassed now t
    if m < limit then do
      let n ← waitLoop t limit cs
      pure (n + 1)
    else pure 0

/-- A rule as in make: is the target older than its source or missing? `getFileModTime(target) < getFileModTime(source)`,
    src/filelib/getfilemodtime.c:4-9. -/
def outdated (target source : Option Int) : Bool := decide (getFileModTime target < getFileModTime source)

end Ulz.Stopwatch

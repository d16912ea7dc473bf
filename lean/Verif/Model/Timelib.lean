import Verif.Model.Numbers
/-! Model of src/timelib (timestamp.c is in Model/Output). `long` and `time_t` have 64 bits; overflow is undefined. -/
namespace Ulz.Timelib
open Numbers

/-- `struct timespec` (nanoseconds) and `struct timeval` (microseconds). -/
structure Time where
  sec : Int
  frac : Int
  deriving DecidableEq, Repr

/-- src/timelib/timespec_diff.c:3-6. -/
def timespec_diff (a b : Time) : C Int := do
  let s ← i64 (a.sec - b.sec)
  let s ← i64 (s * 1000000000)
  let n ← i64 (a.frac - b.frac)
  i64 (s + n)

/-- src/timelib/getutime.c:3-7; `t` is what gettimeofday stores. -/
def getutime (t : Time) : C Int := do
  let s ← i64 (t.sec * 1000)
  let s ← i64 (s * 1000)
  i64 (s + t.frac)

/-- The `timersub` macro of sys/time.h: differences, then a borrow if the microseconds are negative. -/
def timersub (a b : Time) : C Time := do
  let s ← i64 (a.sec - b.sec)
  let u ← i64 (a.frac - b.frac)
  if u < 0 then do
    let s ← i64 (s - 1)
    let u ← i64 (u + 1000000)
    pure ⟨s, u⟩
  else pure ⟨s, u⟩

/-- src/timelib/mspassed.c:6-11; `now` is what gettimeofday stores. C division truncates. -/
def mspassed (now t : Time) : C Int := do
  let diff ← timersub now t
  let s ← i64 (diff.sec * 1000)
  i64 (s + diff.frac.tdiv 1000)

/-- An answer of the system to `nanosleep`: slept to the end; interrupted with the time remaining; another error. -/
inductive Ans where
  | done
  | eintr (rem : Time)
  | err
  deriving DecidableEq, Repr

/-- POSIX `nanosleep`: a request with negative seconds or with nanoseconds outside 0..999999999 is an error, otherwise the
    answer is the system's. -/
def nanosleep (req : Time) (a : Ans) : Ans :=
  if req.sec < 0 ∨ req.frac < 0 ∨ 1000000000 ≤ req.frac then .err else a

/-- src/timelib/msleep.c:14 = src/timelib/microsleep.c:14: the loop, with the system's answers; they run out only if every one of
    them is an interruption (`hang`: the call is still sleeping). Result: return value and the requests made with what
    happened to them. -/
def sleepLoop (req : Time) : List Ans → C (Int × List (Time × Ans))
  | [] => .error .hang
  | a :: as =>
    match nanosleep req a with
    | .done => pure (0, [(req, .done)])
    | .err => pure (-1, [(req, .err)])
    | .eintr rem => do
      let (r, tr) ← sleepLoop rem as
      pure (r, (req, .eintr rem) :: tr)

/-- src/timelib/msleep.c:9-16. -/
def msleep (ms : Int) (as : List Ans) : C (Int × List (Time × Ans)) := do
  let n ← i64 (ms.tmod 1000 * 1000)
  let n ← i64 (n * 1000)
  sleepLoop ⟨ms.tdiv 1000, n⟩ as

/-- src/timelib/microsleep.c:9-16. -/
def microsleep (us : Int) (as : List Ans) : C (Int × List (Time × Ans)) := do
  let n ← i64 (us.tmod 1000000 * 1000)
  sleepLoop ⟨us.tdiv 1000000, n⟩ as

end Ulz.Timelib

import Verif.Model.Bitarray
/-! Model of threads that use one bit array at the same time. `|=` and `&=` (include/bitarray.h:26, 29) load the byte and store it: two steps. Steps of
different threads follow each other in any order and are atomic (by ISO C the accesses are a data race and undefined, so this is the best case). Bytes are
stored one at a time; a compiler that stores more at once makes it worse. -/
namespace Ulz.Bashare

/-- The macros: `BA_SET(x, y, c)` (include/bitarray.h:31; with a constant condition also 25 and 28) and `BA_GET(x, y)` (include/bitarray.h:22). -/
inductive Op where
  | set (y : Nat) (c : Bool)
  | get (y : Nat)
  deriving DecidableEq, Repr

/-- Where a thread is in its first unfinished call: before it, or with the byte loaded (include/bitarray.h:26, 29). -/
inductive Pc where
  | idle
  | loaded (v : Byte)
  deriving DecidableEq, Repr

/-- A thread: its unfinished calls (include/bitarray.h:22-31), where it is, and what it has got. -/
structure Thread where
  calls : List Op
  pc : Pc
  out : List Bool
  deriving DecidableEq, Repr

/-- The array and the threads (include/bitarray.h:22-31). -/
structure St where
  arr : List Byte
  th : Nat → Thread

/-- `f` with another value at `t`. -/
def upd {α : Type} (f : Nat → α) (t : Nat) (v : α) : Nat → α := fun u => if u = t then v else f u

/-- include/bitarray.h:26, 29: the byte that is stored. -/
def changed (v : Byte) (y : Nat) (c : Bool) : Byte := if c then v ||| (1#8 <<< (y % 8)) else v &&& ~~~(1#8 <<< (y % 8))

/-- The next step of thread `t` (include/bitarray.h:22-31). -/
def step (s : St) (t : Nat) : C St :=
  let T := s.th t
  match T.calls with
  | [] => pure s
  | .get y :: os => do
    let b ← Bitarray.BA_GET s.arr y
    pure ⟨s.arr, upd s.th t ⟨os, .idle, T.out ++ [b]⟩⟩
  | .set y c :: os =>
    match T.pc with
    | .idle => do
      let v ← rd s.arr (y / 8)
      pure ⟨s.arr, upd s.th t { T with pc := .loaded v }⟩
    | .loaded v => do
      let arr ← wr s.arr (y / 8) (changed v y c)
      pure ⟨arr, upd s.th t ⟨os, .idle, T.out⟩⟩

/-- Steps of the threads in the order `sched` (include/bitarray.h:22-31). -/
def run (s : St) : List Nat → C St
  | [] => pure s
  | t :: ts => do run (← step s t) ts

/-- The threads with the calls they are to make (include/bitarray.h:22-31). -/
def start (x : List Byte) (prog : Nat → List Op) : St := ⟨x, fun t => ⟨prog t, .idle, []⟩⟩

end Ulz.Bashare

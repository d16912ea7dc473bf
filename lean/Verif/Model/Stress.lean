import Verif.Model.Sblist
import Verif.Model.Tglist
/-! Model of the programs tests/sblist_test.c and tests/tglist_test.c, which add numbered items to a list and look at them again, for any `DATASIZE`. -/
namespace Ulz.Stress

/-- tests/sblist_test.c:6-10, tests/tglist_test.c:11-15: `sizeof(struct test1)`, two `int` and `DATASIZE - 8` bytes. -/
def size (D : Nat) : Nat := (D + 3) / 4 * 4

/-- tests/sblist_test.c:6-10, tests/tglist_test.c:11-15: the bytes of the structure (the padding of the static object is zero). -/
def bytes (D x y : Nat) (data : List Byte) : List Byte :=
  Tglist.leBytes 4 x ++ Tglist.leBytes 4 y ++ data ++ List.replicate (size D - D) 0

/-- What the world does in a run of `test_single`: the result of `rand()` in `make_struct` in each round, the first byte of the block `disturber` that is made
    in that round (`none`: malloc fails), and the outcome of the reallocation if the list needs one. -/
structure Env where
  rnd : Nat → Nat
  dist : Nat → Option Byte
  mem : Nat → Alloc

/-- `o_0++` (tests/sblist_test.c:31, 36, 40) for an `int`. -/
def incr (o : Nat) : C Nat := if o + 1 < 2^31 then pure (o + 1) else .error .overflow

/-- tests/sblist_test.c:12-18, tests/tglist_test.c:17-23: the object's new `data` and all its bytes. `d` is the first byte of the block. -/
def make_struct (D : Nat) (data : List Byte) (rnd x y : Nat) (d : Option Byte) : C (List Byte × List Byte) := do
  if data.length = 0 then .error .divZero
  else
    match d with
    | none => .error .nullDeref
    | some c =>
      let data ← wr data (rnd % data.length) c
      pure (data, bytes D x y data)

/-- tests/sblist_test.c:30-37, tests/tglist_test.c:34-41: `k` rounds from round `i` on. The result of the addition is not looked at. The loops differ in `add`. -/
def fillLoop {L : Type} (add : Alloc → L → List Byte → C (L × Nat)) (D : Nat) (e : Env) :
    (k i o : Nat) → (data : List Byte) → (d : Option Byte) → L → C (L × List Byte)
  | 0, _, _, data, _, l => pure (l, data)
  | k + 1, i, o, data, d, l => do
    let temp := o
    let o1 ← incr o
    let d := if i % 4 = 0 then e.dist i else d
    let o2 ← incr o1
    let (data, x) ← make_struct D data (e.rnd i) temp o1 d
    let (l, _) ← add (e.mem i) l x
    fillLoop add D e k (i + 1) o2 data d l

/-- `max * blocktimes` for `int`s (tests/sblist_test.c:30, 39; tests/tglist_test.c:34, 43). -/
def mulInt (a b : Int) : C Int := if -2^31 ≤ a * b ∧ a * b < 2^31 then pure (a * b) else .error .overflow

/-- Conversion of an `int` to `size_t`. -/
def toSize (n : Int) : Nat := (n % 2^64).toNat

/-- tests/sblist_test.c:39-41: `false` is a call of abort. -/
def checkLoop (l : Sblist.SB) : (k o : Nat) → C (Option Nat)
  | 0, o => pure (some o)
  | k + 1, o => do
    match Sblist.get l (o / 2) with
    | none => pure none
    | some p =>
      let x ← rdN l.items p 4
      let o1 ← incr o
      if Tglist.leVal x ≠ o then pure none
      else
        let y ← rdN l.items (p + 4) 4
        let o2 ← incr o1
        if Tglist.leVal y ≠ o1 then pure none else checkLoop l k o2

/-- tests/sblist_test.c:20-45: whether the test ends without abort, and the static object's `data`. The blocks freed at the end are not looked at again. -/
def test_single (D : Nat) (e : Env) (max blocks blocktimes : Int) (data : List Byte) : C (Bool × List Byte) := do
  let l ← Sblist.init (size D) (toSize blocks)
  let n ← mulInt max blocktimes
  let (l, data) ← fillLoop Sblist.add D e (toSize n) 0 0 data none l
  match ← checkLoop l (toSize n) 0 with
  | none => pure (false, data)
  | some o => pure ((Sblist.get l (o / 2)).isNone, data)

/-- tests/sblist_test.c:47-56. -/
def test_each (D : Nat) (e : Nat → Env) (max : Int) (round : Nat) (data : List Byte) : C Bool := do
  let (r, data) ← test_single D (e round) max round 10 data
  if !r then pure false
  else if (round : Int) + 1 < max then test_each D e max (round + 1) data else pure true
  termination_by (max - round).toNat

/-- tests/sblist_test.c:59-65; the arguments are what `atoi` makes of them. -/
def main (D : Nat) (e : Nat → Env) : List Int → C Bool
  | [] => .error .nullDeref
  | [max] => test_each D e max 1 (List.replicate (D - 8) 0)
  | max :: blocks :: _ => do pure (← test_single D (e 0) max blocks 1 (List.replicate (D - 8) 0)).1

/-- tests/tglist_test.c:43-45. -/
def tcheckLoop (D : Nat) (l : Tglist.TG) : (k o : Nat) → C Bool
  | 0, _ => pure true
  | k + 1, o => do
    let p := szt (o / 2 * size D)
    let x ← rdN l.items p 4
    let o1 ← incr o
    if Tglist.leVal x ≠ o then pure false
    else
      let y ← rdN l.items (p + 4) 4
      let o2 ← incr o1
      if Tglist.leVal y ≠ o1 then pure false else tcheckLoop D l k o2

/-- tests/tglist_test.c:25-49. -/
def ttest_single (D : Nat) (e : Env) (max blocktimes : Int) : C Bool := do
  let n ← mulInt max blocktimes
  let (l, _) ← fillLoop (Tglist.add (size D)) D e (toSize n) 0 0 (List.replicate (D - 8) 0) none Tglist.init
  tcheckLoop D l (toSize n) 0

/-- tests/tglist_test.c:51-55. -/
def tmain (D : Nat) (e : Env) : List Int → C Bool
  | [] => ttest_single D e (64 * 1024) 1
  | max :: _ => ttest_single D e max 1

end Ulz.Stress

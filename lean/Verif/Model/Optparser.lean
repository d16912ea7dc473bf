import Verif.Model.Stringptr
import Verif.Model.Text
/-! Model of src/optparser (op_printall is in Model/Misc.lean). -/
namespace Ulz.Optparser
open Ulz.Stringptr (SP memEq)
open Ulz.Text (strcmpEq)

/-- include/optparser.h:24-27. `argv[i]` is the buffer of the i-th argument. -/
structure Op where
  argc : Nat
  argv : List (List Byte)
  deriving DecidableEq, Repr

/-- src/optparser/op_init.c:3-6. `argc` of main is not negative. -/
def op_init (argc : Nat) (argv : List (List Byte)) : Op := ⟨argc, argv⟩

/-- `p->argv[i]` -/
def arg (p : Op) (i : Nat) : C (List Byte) :=
  match p.argv[i]? with
  | some s => .ok s
  | none => .error .oobRead

/-- src/optparser/op_get.c:4-12: `str` is the memory from the pointer on. -/
def strleneqLoop : (str : List Byte) → (l : Nat) → C Nat
  | [], _ => .error .oobRead
  | c :: str, l => if c ≠ 0 ∧ c ≠ ch '=' then strleneqLoop str (l + 1) else if c = 0 then pure 0 else pure l

/-- src/optparser/op_get.c:4-12. -/
def strleneq (str : List Byte) : C Nat := strleneqLoop str 0

/-- src/optparser/op_get.c:20-21, src/optparser/op_hasflag.c:9-10: the offset of the name in an argument that starts
    with a dash. -/
def skipDash (s : List Byte) (size : Nat) : C Nat := do
  if size > 1 then
    if (← rd s 1) = ch '-' then pure 2 else pure 1
  else pure 1

/-- src/optparser/op_get.c:18-28, one round: the result, if the function returns in it. A `char*` into the arguments is the
    number of the argument and the offset in it. -/
def getRound (p : Op) (a : SP) (i : Nat) : C (Option (Nat × Nat)) := do
  let s ← arg p i
  if (← rd s 0) = ch '-' then
    let o ← skipDash s a.size
    let l ← strleneq (s.drop o)
    if ← (if l = a.size then memEq a.buf 0 (s.drop o) 0 l else pure false) then pure (some (i, o + l + 1))
    else if ← (if l = 0 then strcmpEq a.buf (s.drop o) else pure false) then
      if i + 1 < p.argc then do
        let _ ← arg p (i + 1)
        pure (some (i + 1, 0))
      else pure none
    else pure none
  else pure none

/-- src/optparser/op_get.c:17-30: the loop. -/
def getLoop (p : Op) (a : SP) : (fuel i : Nat) → C (Option (Nat × Nat))
  | 0, _ => .error .hang
  | fuel + 1, i =>
    if i < p.argc then do
      match ← getRound p a i with
      | some r => pure (some r)
      | none => getLoop p a fuel (i + 1)
    else pure none

/-- src/optparser/op_get.c:14-30. NULL is `none`. -/
def op_get (p : Op) (a : SP) : C (Option (Nat × Nat)) := getLoop p a (p.argc + 1) 1

/-- src/optparser/op_hasflag.c:7-15, one round: whether the function returns 1 in it. -/
def flagRound (p : Op) (f : SP) (i : Nat) : C Bool := do
  let s ← arg p i
  if (← rd s 0) = ch '-' then
    let o ← skipDash s f.size
    let l ← Hex.strlen (s.drop o)
    if l = f.size then memEq f.buf 0 (s.drop o) 0 l else pure false
  else pure false

/-- src/optparser/op_hasflag.c:6-17: the loop. -/
def flagLoop (p : Op) (f : SP) : (fuel i : Nat) → C Nat
  | 0, _ => .error .hang
  | fuel + 1, i =>
    if i < p.argc then do if ← flagRound p f i then pure 1 else flagLoop p f fuel (i + 1) else pure 0

/-- src/optparser/op_hasflag.c:3-17. -/
def op_hasflag (p : Op) (f : SP) : C Nat := flagLoop p f (p.argc + 1) 1

end Ulz.Optparser

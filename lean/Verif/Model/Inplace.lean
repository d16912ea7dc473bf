import Verif.Model.Filelib
/-! Model of `normalizepath_cstr` (src/filelib/normalizepath_cstr.c, without PSPLIKE_PATH) when the path and the output
    are in one object, as in `normalizepath_cstr(p, p)`. -/
namespace Ulz.Inplace
open Ulz.Filelib (stepC finish)

/-- src/filelib/normalizepath_cstr.c:30-76: the loop, with the path `p` and the output `o` bytes behind the start of the
    object `m`. One iteration (`Filelib.stepC`) makes all its reads before its only write (line 73), so it sees the object
    as it was before. The result is the object and `out_size`, or nothing after `fail`. The test of line 59 is made after
    every iteration as in `Filelib.loopC`: after line 73 the byte `path[i]` is not 0, also if it is the one just written. -/
def loopO (p o : Nat) : (fuel : Nat) → (m : List Byte) → (i size : Nat) → C (List Byte × Option Nat)
  | 0, _, _, _ => .error .hang
  | fuel + 1, m, i, size => do
    if (← rd (m.drop p) i) ≠ 0 then
      match ← stepC (m.drop p) ⟨i, m.drop o, size⟩ with
      | none => pure (m, none)
      | some s =>
        let m := m.take o ++ s.out
        if (← rd (m.drop p) s.i) = 0 then pure (m, some s.size) else loopO p o fuel m (s.i + 1) s.size
    else pure (m, some size)

/-- src/filelib/normalizepath_cstr.c:12-82 called as `normalizepath_cstr(m + p, m + o)`. Result: the object, and whether
    `out` (not NULL) is returned. -/
def normalizepath_cstr (m : List Byte) (p o : Nat) : C (List Byte × Bool) := do
  if (← rd (m.drop p) 0) ≠ ch '/' then pure (m, false)
  else
    match ← loopO p o ((m.drop p).length + 1) m 0 0 with
    | (m, none) => pure (m, false)
    | (m, some size) => pure (m.take o ++ (← finish (m.drop o) size).1, true)

end Ulz.Inplace

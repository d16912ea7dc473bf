import Verif.Model.Filelib
/-! Model of normalizepath_cstr compiled for the PSP or with `PSPLIKE_PATH`. -/
namespace Ulz.Psp
open Ulz.Filelib

/-- src/filelib/normalizepath_cstr.c:18-25: the loop that copies the drive. `out_size` equals `i` at the start of an iteration and
    after the loop. Result: the output buffer and `i`; `none` is `fail`. -/
def drive (path : List Byte) : (fuel i : Nat) → (out : List Byte) → C (List Byte × Option Nat)
  | 0, _, _ => .error .hang
  | fuel + 1, i, out => do
    let c ← rd path i
    if c ≠ 0 then
      let out ← wr out i c
      if c = ch '/' then
        if 0 < i then
          if (← rd path (i - 1)) ≠ ch ':' then pure (out, none) else pure (out, some i)
        else pure (out, some i)
      else drive path fuel (i + 1) out
    else pure (out, some i)

/-- src/filelib/normalizepath_cstr.c:12-82 with `PSPLIKE_PATH`. Result: the output buffer, and whether `out` (not NULL) is returned. -/
def normalizepath_cstr (path out : List Byte) : C (List Byte × Bool) := do
  match ← drive path (path.length + 1) 0 out with
  | (out, none) => pure (out, false)
  | (out, some i) =>
    if (← rd path i) ≠ ch '/' then pure (out, false)
    else
      match ← loopC path (path.length + 1) ⟨i, out, i⟩ with
      | (out, none) => pure (out, false)
      | (out, some size) => pure ((← finish out size).1, true)

end Ulz.Psp

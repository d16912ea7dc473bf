import Verif.Model.Output
/-! Model of src/logger, ulz_fprintf and ulz_printf as sequences of calls of `write`, the result of which the code ignores: the list of the
    byte sequences given to `write`, in the order of the calls. -/
namespace Ulz.Writes
open Ulz.Stringptr (SP)
open Ulz.Output (Vario Tm)
open Ulz.Numbers Ulz.Format

/-- The calls of `write`. -/
abbrev Calls := List (List Byte)

/-- src/logger/log_puts.c:4-7. -/
def log_puts (s : Option SP) : C Calls :=
  match s with
  | none => pure []
  | some s => if s.size = 0 then pure [] else do pure [← rdN s.buf 0 s.size]

/-- src/logger/log_putc.c:3-9. -/
def log_putc (c : Option (List Byte)) : C Calls :=
  match c with
  | none => pure []
  | some c => do log_puts (some ⟨c, ← Hex.strlen c⟩)

/-- src/logger/log_putd.c:5-10. -/
def log_putd (buf : List Byte) (number : BitVec 64) (signflag : Bool) : C Calls := do
  let (b, cnv) ← numberToString number 10 buf 0 (if signflag then NTS_SIGNED_TYPE else 0)
  match cnv with
  | none => pure []
  | some r => do pure [← rdN (b.drop r) 0 (← Hex.strlen (b.drop r))]

/-- src/logger/log_putln.c:3-5. -/
def log_putln : Calls := [bytes! "\n"]

/-- src/logger/log_put.c:18-40: the `switch`. -/
def put1 (buf : List Byte) : Vario → C Calls
  | .stringptr s => log_puts s
  | .charstar none => pure []
  | .charstar (some c) => do log_puts (some ⟨c, ← Hex.strlen c⟩)
  | .int v => log_putd buf (v.signExtend 64) true
  | .unsigned v => log_putd buf (v.zeroExtend 64) false
  | .long v => log_putd buf v true
  | .ulong v => log_putd buf v false
  | .other => pure []

/-- src/logger/log_put.c:8-44. -/
def log_put (bufs : Nat → List Byte) : List Vario → C Calls
  | [] => pure log_putln
  | v :: vs => do
    let a ← put1 (bufs 0) v
    let r ← log_put (fun i => bufs (i + 1)) vs
    pure (a ++ r)

/-- src/logger/log_puterror.c:4-10. -/
def log_puterror (err : Option (List Byte)) (msg : List Byte) : C Calls := do
  let a ← log_putc err
  let b ← log_puts (some ⟨bytes! ": " ++ [0], 2⟩)
  let c ← log_putc (some msg)
  pure (a ++ b ++ c ++ log_putln)

/-- src/format/ulz_fprintf.c:6-15 = src/format/ulz_printf.c:6-15. -/
def ulz_fprintf (dest cbuf format : List Byte) (args : List Arg) : C Calls := do
  let (d, result) ← ulz_vsnprintf (some dest) 4096 format args cbuf
  if result ≠ 0 then
    match d with
    | none => .error .nullDeref
    | some b => do pure [← rdN b 0 (result % 2 ^ 64).toNat]
  else pure []

end Ulz.Writes

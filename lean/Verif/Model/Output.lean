import Verif.Model.Format
import Verif.Model.Stringptr
/-! Model of the callers of ulz_vsnprintf: src/format/ulz_fprintf.c, ulz_printf.c, src/stringptr/stringptr_format.c,
    src/timelib/timestamp.c, and of src/logger. Output is the list of bytes given to `write`, which is taken to write all of
    them (the code ignores its result). Uninitialised local arrays are parameters. -/
namespace Ulz.Output
open Format Numbers Stringptr

/-- src/format/ulz_fprintf.c:6-15 = src/format/ulz_printf.c:6-15, with `dest` the local array of 4096 bytes. `write(fd, dest, result)`
    converts the result to `size_t` and reads that many bytes. -/
def ulz_fprintf (dest cbuf format : List Byte) (args : List Arg) : C (List Byte) := do
  let (d, result) ← ulz_vsnprintf (some dest) 4096 format args cbuf
  if result ≠ 0 then
    match d with
    | none => .error .nullDeref
    | some b => rdN b 0 (result % 2 ^ 64).toNat
  else pure []

/-- src/stringptr/stringptr_format.c:6-15. The `-1` of a failing format becomes the largest `size_t`. -/
def stringptr_format (a : Alloc) (cbuf : List Byte) (fmt : Option (List Byte)) (args : List Arg) : C (Option SP) := do
  match ← new a 1000 with
  | none => pure none
  | some r =>
    match fmt with
    | none => pure none
    | some fmt => do
      let (d, res) ← ulz_vsnprintf (some r.buf) 1000 fmt args cbuf
      match d with
      | none => .error .nullDeref
      | some b => pure (some ⟨b, (res % 2 ^ 64).toNat⟩)

/-- The fields of `struct tm` that are used; `int` values. -/
structure Tm where
  year : Int
  mon : Int
  mday : Int
  hour : Int
  min : Int
  sec : Int
  deriving DecidableEq, Repr

/-- `int` addition. -/
def addInt (a b : Int) : C Int := if -2147483648 ≤ a + b ∧ a + b ≤ 2147483647 then pure (a + b) else .error .overflow

/-- An `int` passed through the `...`. -/
def intArg (x : Int) : Arg := .int (BitVec.ofInt 32 x)

/-- src/timelib/timestamp.c:7-12: `tim` is what localtime_r stores (taken to succeed). -/
def timestamp (buffer : List Byte) (bufsize : Nat) (cbuf : List Byte) (tim : Tm) : C (List Byte × Nat) := do
  let y ← addInt 1900 tim.year
  let m ← addInt tim.mon 1
  let (d, r) ← ulz_vsnprintf (some buffer) bufsize (bytes! "%.4d-%.2d-%.2d %.2d:%.2d:%.2d" ++ [0])
    [intArg y, intArg m, intArg tim.mday, intArg tim.hour, intArg tim.min, intArg tim.sec] cbuf
  match d with
  | none => .error .nullDeref
  | some b => pure (b, (r % 2 ^ 64).toNat)

/-! ### src/logger -/

/-- src/logger/log_puts.c:4-7; NULL is `none`. -/
def log_puts (s : Option SP) : C (List Byte) :=
  match s with
  | none => pure []
  | some s => if s.size = 0 then pure [] else rdN s.buf 0 s.size

/-- src/logger/log_putc.c:3-9. -/
def log_putc (c : Option (List Byte)) : C (List Byte) :=
  match c with
  | none => pure []
  | some c => do log_puts (some ⟨c, ← Hex.strlen c⟩)

/-- src/logger/log_putd.c:5-10, with the local array `buf` of 32 bytes. -/
def log_putd (buf : List Byte) (number : BitVec 64) (signflag : Bool) : C (List Byte) := do
  let (b, cnv) ← numberToString number 10 buf 0 (if signflag then NTS_SIGNED_TYPE else 0)
  match cnv with
  | none => pure []
  | some r => do rdN (b.drop r) 0 (← Hex.strlen (b.drop r))

/-- src/logger/log_putln.c:3-5. -/
def log_putln : List Byte := bytes! "\n"

/-- include/vario.h:6-19: a tagged pointer to a value; `other` is any tag that is not listed. -/
inductive Vario where
  | stringptr (s : Option SP)
  | charstar (c : Option (List Byte))
  | int (v : BitVec 32)
  | unsigned (v : BitVec 32)
  | long (v : BitVec 64)
  | ulong (v : BitVec 64)
  | other

/-- src/logger/log_put.c:18-40: the `switch`. -/
def put1 (buf : List Byte) : Vario → C (List Byte)
  | .stringptr s => log_puts s
  | .charstar none => pure []
  | .charstar (some c) => do log_puts (some ⟨c, ← Hex.strlen c⟩)
  | .int v => log_putd buf (v.signExtend 64) true
  | .unsigned v => log_putd buf (v.zeroExtend 64) false
  | .long v => log_putd buf v true
  | .ulong v => log_putd buf v false
  | .other => pure []

/-- src/logger/log_put.c:8-44: the arguments before the NULL. `bufs` are the arrays of the successive log_putd calls. -/
def log_put (bufs : Nat → List Byte) : List Vario → C (List Byte)
  | [] => pure log_putln
  | v :: vs => do
    let a ← put1 (bufs 0) v
    let r ← log_put (fun i => bufs (i + 1)) vs
    pure (a ++ r)

/-- src/logger/log_puterror.c:4-10: `msg` is what strerror returns. -/
def log_puterror (err : Option (List Byte)) (msg : List Byte) : C (List Byte) := do
  let a ← log_putc err
  let b ← log_puts (some ⟨bytes! ": " ++ [0], 2⟩)
  let c ← log_putc (some msg)
  pure (a ++ b ++ c ++ log_putln)

/-- src/logger/log_timestamp.c:4-10: `buffer` is the local array of 32 bytes. -/
def log_timestamp (buffer cbuf : List Byte) (tim : Tm) : C (List Byte) := do
  let (b, n) ← timestamp buffer 32 cbuf tim
  log_puts (some ⟨b, n⟩)

end Ulz.Output

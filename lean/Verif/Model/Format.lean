import Verif.Model.Numbers
import Verif.Model.Mem
/-! Model of src/format. A pointer into the format string is the list of the bytes from there to the end of its object. -/
namespace Ulz.Format
open Numbers

/-- A variable argument: one of the promoted types. `int`/`unsigned` and `long`/`size_t`/pointers are bit patterns; a `char*` is
    NULL or the bytes of its object. -/
inductive Arg where
  | int (v : BitVec 32)
  | long (v : BitVec 64)
  | str (b : Option (List Byte))
  deriving DecidableEq, Repr

/-- The variables of ulz_vsnprintf. `dest` is the object the destination points to, `none` for NULL; `o` the offset written next;
    `omax` is `dest + destsize - 1`, so `o < omax` is `o + 1 < destsize` (`o` counts up from 0). `res` is not bounded here.
    `base` is always 10 between conversions and `nflags` set before each use, so both are arguments of `nconv` instead. -/
structure St where
  dest : Option (List Byte)
  destsize : Nat
  o : Nat
  res : Nat
  width : Nat
  cbuf : List Byte
  args : List Arg
  deriving DecidableEq, Repr

/-- src/format/ulz_vsnprintf.c:42-46 = 102-106: `if(o < omax) { *o = c; o++; res++; } else if(!o) res++;` -/
def emit (st : St) (c : Byte) : C St :=
  match st.dest with
  | none => pure { st with res := st.res + 1 }
  | some b =>
    if st.o + 1 < st.destsize then do
      let b ← wr b st.o c
      pure { st with dest := some b, o := st.o + 1, res := st.res + 1 }
    else pure st

/-- src/format/ulz_vsnprintf.c:41-48: `while(*ins)`, for `ins` not NULL. -/
def strmove (st : St) : List Byte → C St
  | [] => .error .oobRead
  | c :: ins => if c = 0 then pure st else do strmove (← emit st c) ins

/-- Next `int` argument; an argument that is missing or of another type is undefined behaviour. -/
def vaInt (st : St) : C (BitVec 32 × St) :=
  match st.args with
  | .int v :: r => pure (v, { st with args := r })
  | _ => .error .oobRead

/-- Next `unsigned long`, `unsigned long long` or `size_t` argument (all have 64 bits). -/
def vaLong (st : St) : C (BitVec 64 × St) :=
  match st.args with
  | .long v :: r => pure (v, { st with args := r })
  | _ => .error .oobRead

/-- Next `char*` argument. -/
def vaStr (st : St) : C (Option (List Byte) × St) :=
  match st.args with
  | .str b :: r => pure (b, { st with args := r })
  | _ => .error .oobRead

/-- src/format/ulz_vsnprintf.c:59-64 (nconv), followed by strmove; `none` is the `fail` of line 40. -/
def nconv (st : St) (inn : BitVec 64) (base nflags : Nat) : C (Option St) := do
  let nflags := if st.width ≠ 0 then nflags ||| NTS_PAD else nflags
  let (cbuf, ins) ← numberToString inn base st.cbuf st.width nflags
  match ins with
  | none => pure none
  | some r => do
    let st ← strmove { st with cbuf := cbuf, width := 0 } (cbuf.drop r)
    pure (some st)

/-- src/strlib/isNumber.c:3-10. -/
def isNumber (c : Byte) : Bool := decide (ch '0' ≤ c ∧ c ≤ ch '9')

/-- src/format/ulz_vsnprintf.c:28: `while(isNumber(a + i)) i++;` -/
def countDigits : List Byte → C Nat
  | [] => .error .oobRead
  | c :: a => if isNumber c then do pure ((← countDigits a) + 1) else pure 0

/-- src/format/ulz_vsnprintf.c:34: the loop over `j`, the digits of the precision being the first `i` bytes of `a`. The
    arithmetic is in `size_t`. -/
def widthLoop (a : List Byte) (i : Nat) : (n j width : Nat) → C Nat
  | 0, _, width => pure width
  | n + 1, j, width => do
    let d := (← rd a j).toNat - 48
    widthLoop a i n (j + 1) (szt (width + d * (if j ≠ 0 then 10 * (i - 1 - j) else 1)))

/-- Outcome of the `switch`: continue the main loop behind the given place, read another modifier there, or fail. -/
inductive Next where
  | loop (a : List Byte)
  | mod (a : List Byte)
  | fail
  deriving DecidableEq, Repr

/-- src/format/ulz_vsnprintf.c:66-84: `case 'l': case 'z':`; `lflag` says which, `a` is behind that letter. -/
def caseL (st : St) (lflag : Bool) (a : List Byte) : C (St × Next) := do
  let a := if lflag = true ∧ (← rd a 0) = ch 'l' then a.drop 1 else a
  let c ← rd a 0
  if c ≠ ch 'd' ∧ c ≠ ch 'u' then pure (st, .fail)
  else do
    let (inn, st) ← vaLong st
    match ← nconv st inn 10 (if c = ch 'd' then NTS_SIGNED_TYPE else 0) with
    | none => pure (st, .fail)
    | some st => pure (st, .loop (a.drop 1))

/-- src/format/ulz_vsnprintf.c:57-64: intstart with nconv; `a` is behind the conversion letter. -/
def intstart (st : St) (base nflags : Nat) (a : List Byte) : C (St × Next) := do
  let (v, st) ← vaInt st
  match ← nconv st (v.signExtend 64) base nflags with
  | none => pure (st, .fail)
  | some st => pure (st, .loop a)

/-- src/format/ulz_vsnprintf.c:22-99: the `switch(*a)` with `a` at the character behind `%` or behind a precision. -/
def convert (st : St) (a : List Byte) : C (St × Next) := do
  let c ← rd a 0
  let a := a.drop 1
  if c = ch '%' then pure (← emit st c, .loop a)
  else if c = ch '.' then do
    let i ← countDigits a
    if i = 0 then pure (st, .fail)
    else do
      let w ← widthLoop a i i 0 0
      pure ({ st with width := w }, .mod (a.drop i))
  else if c = ch 's' then do
    let (ins, st) ← vaStr st
    match ins with
    | none => pure (st, .fail)
    | some b => pure (← strmove st b, .loop a)
  else if c = ch 'c' then do
    let (v, st) ← vaInt st
    let cbuf ← wr st.cbuf 0 (v.setWidth 8)
    let cbuf ← wr cbuf 1 0
    pure (← strmove { st with cbuf := cbuf } cbuf, .loop a)
  else if c = ch 'd' then intstart st 10 NTS_SIGNED_TYPE a
  else if c = ch 'l' then caseL st true a
  else if c = ch 'z' then caseL st false a
  else if c = ch 'p' then do
    let (inn, st) ← vaLong st
    match ← nconv st inn 16 0 with
    | none => pure (st, .fail)
    | some st => pure (st, .loop a)
  else if c = ch 'u' then do
    let (v, st) ← vaInt st
    match ← nconv st (v.zeroExtend 64) 10 0 with
    | none => pure (st, .fail)
    | some st => pure (st, .loop a)
  else if c = ch 'x' then intstart st 16 NTS_LOWERCASE_CHARS a
  else if c = ch 'X' then intstart st 16 0 a
  else pure (st, .fail)

/-- src/format/ulz_vsnprintf.c:18-110. The loop over the format with `goto checkmod` (`conv` set: `a` is behind a `%` or
    behind a precision). Every round passes at least one byte of the format, so its length is enough fuel. The result is the
    destination and the return value. -/
def loop : (fuel : Nat) → (conv : Bool) → List Byte → St → C (Option (List Byte) × Int)
  | 0, _, _, _ => .error .hang
  | fuel + 1, true, a, st => do
    match ← convert st a with
    | (st, .loop a) => loop fuel false a st
    | (st, .mod a) => loop fuel true a st
    | (st, .fail) => pure (st.dest, -1)
  | fuel + 1, false, a, st => do
    let c ← rd a 0
    if c = 0 then
      match st.dest with
      | none => pure (none, st.res)
      | some b => pure (some (← wr b st.o 0), st.res)
    else if c = ch '%' then loop fuel true (a.drop 1) st
    else loop fuel false (a.drop 1) (← emit st c)

/-- src/format/ulz_vsnprintf.c:9-111 = src/format/ulz_snprintf.c:5-11. `cbuf` is the uninitialised local array of 32 bytes. -/
def ulz_vsnprintf (dest : Option (List Byte)) (destsize : Nat) (format : List Byte) (args : List Arg) (cbuf : List Byte) :
    C (Option (List Byte) × Int) :=
  loop (format.length + 1) false format { dest := dest, destsize := destsize, o := 0, res := 0, width := 0, cbuf := cbuf, args := args }

end Ulz.Format

import Verif.Model.Output
import Verif.Model.Hex
import Verif.Model.Crc
import Verif.Model.Wholefile
/-! Model of the example programs hex, diff, crc32_printer and of the comparison in find_identical_files. -/
namespace Ulz.Programs
open Format Stringptr Output

/-- The local arrays `dest` and `cbuf` (uninitialised) of the successive calls of ulz_printf. -/
abbrev Scratch := Nat → List Byte × List Byte

/-- Call number `k` of ulz_printf: what it writes to descriptor 1. -/
def printf (s : Scratch) (k : Nat) (format : List Byte) (args : List Arg) : C (List Byte) :=
  ulz_fprintf (s k).1 (s k).2 (format ++ [0]) args

/-! ### examples/hex.c -/

/-- examples/hex.c:15-21: the loop and the final newline. `reads` are the non-empty answers of `read` until it returns 0 or -1;
    `out` is the local array of 2049 bytes. -/
def hexLoop (s : Scratch) : (k : Nat) → (out : List Byte) → (reads : List (List Byte)) → C (List Byte)
  | k, _, [] => printf s k (bytes! "\n") []
  | k, out, buf :: reads => do
    let out ← Hex.raw2hex out buf
    let a ← printf s k (bytes! "%s") [.str (some out)]
    let r ← hexLoop s (k + 1) out reads
    pure (a ++ r)

/-- examples/hex.c:11-23 without arguments. -/
def hex (s : Scratch) (out : List Byte) (reads : List (List Byte)) : C (List Byte) := hexLoop s 0 out reads

/-! ### examples/diff.c -/

/-- examples/diff.c:25: `p` is the common offset of p1 and p2. The result is their new offset and `l`. Forming a pointer more
    than one past the end of the object is undefined. -/
def scan (a b : List Byte) (min : Nat) : (fuel : Nat) → (p l : Nat) → C (Nat × Nat)
  | 0, _, _ => .error .hang
  | fuel + 1, p, l =>
    let l := l + 1
    if a.length < p + l then .error .oobRead
    else if p + l < min then do
      let p := p + 1
      if (← rd a p) ≠ (← rd b p) then scan a b min fuel p l else pure (p, l)
    else pure (p, l)

/-- A `size_t` argument. -/
def zu (n : Int) : Arg := .long (BitVec.ofInt 64 n)

/-- examples/diff.c:22-32: the loop; the text printed, the number of calls of ulz_printf and the differences counted. -/
def diffLoop (s : Scratch) (a b : List Byte) (min : Nat) : (fuel k p diffs : Nat) → C (List Byte × Nat × Nat)
  | 0, _, _, _ => .error .hang
  | fuel + 1, k, p, diffs =>
    if p < min then do
      if (← rd a p) ≠ (← rd b p) then
        let (p, l) ← scan a b min (min + 1) p 0
        let t ← printf s k (bytes! "difference at offset %zu of size %zu\n") [zu ((p : Int) - l), zu l]
        let (r, k, diffs) ← diffLoop s a b min fuel (k + 1) (p + 1) (diffs + 1)
        pure (t ++ r, k, diffs)
      else diffLoop s a b min fuel k (p + 1) diffs
    else pure ([], k, diffs)

/-- examples/diff.c:9-33: what is printed; `none` if the assertion fails. The size of `f1` is read before the assertion. -/
def diff (s : Scratch) (f1 f2 : Option SP) : C (Option (List Byte)) :=
  match f1, f2 with
  | none, _ => .error .nullDeref
  | some _, none => pure none
  | some f1, some f2 => do
    let min := f1.size
    let (t0, k, min) ← if f2.size ≠ min then do
        let t ← printf s 0 (bytes! "sizes differ! %zu, %zu\n") [zu f1.size, zu f2.size]
        pure (t, 1, if f2.size < min then f2.size else min)
      else pure ([], 0, min)
    let (t1, k, diffs) ← diffLoop s f1.buf f2.buf min (min + 1) k 0 0
    let t2 ← printf s k (bytes! "%zu differences in %zu bytes detected.\n") [zu diffs, zu min]
    pure (some (t0 ++ t1 ++ t2))

/-! ### examples/crc32_printer.c -/

/-- examples/crc32_printer.c:29-30: eight rounds. -/
def r4bits : Nat → BitVec 32 → BitVec 32
  | 0, c => c
  | n + 1, c => r4bits n ((c >>> 1) ^^^ (if c &&& 1 ≠ 0 then 0xedb88320 else 0))

/-- examples/crc32_printer.c:22-33: crc32_r4_update. -/
def r4update (c : BitVec 32) : List Byte → BitVec 32
  | [] => c
  | x :: xs => r4update (r4bits 8 (c ^^^ x.setWidth 32)) xs

/-- examples/crc32_printer.c:35-41: crc32_r4_final stores the word; the machine is little-endian. -/
def r4final (c : BitVec 32) : List Byte := [c.setWidth 8, (c >>> 8).setWidth 8, (c >>> 16).setWidth 8, (c >>> 24).setWidth 8]

/-- The three contexts: CRC32C, CRC32, r4. -/
structure Ctx where
  c : BitVec 32
  s : BitVec 32
  r4 : BitVec 32

/-- examples/crc32_printer.c:94-96. -/
def feedAll (x : Ctx) (buf : List Byte) : C Ctx := do
  let c ← Crc.update (some (Crc.tables Crc.polyCrc32c)) x.c buf
  let s ← Crc.update (some (Crc.tables Crc.polyCrc32)) x.s buf
  pure ⟨c, s, r4update x.r4 buf⟩

/-- examples/crc32_printer.c:91-98: the loop over the rest of the file; fread fills the array of 65536 bytes as far as the file
    goes (no read errors) and is asked for `cnt` bytes, converted to size_t, unless `cnt` is -1. -/
def crcLoop (cnt : Int) : (fuel : Nat) → (file : List Byte) → Ctx → C Ctx
  | 0, _, _ => .error .hang
  | fuel + 1, file, x => do
    let want := if cnt ≠ -1 then (cnt % 2 ^ 64).toNat else 65536
    let buf := file.take want
    if 65536 < buf.length then .error .oobWrite
    else if buf.length = 0 then pure x
    else
      let x ← feedAll x buf
      if cnt ≠ -1 then pure x else crcLoop cnt fuel (file.drop want) x

/-- examples/crc32_printer.c:85-109: the three results for a file that can be opened; `cnt` is the `int` given, or -1. -/
def crcPrinter (cnt : Int) (file : List Byte) : C (List Byte × List Byte × List Byte) := do
  let x ← crcLoop cnt (file.length + 1) file ⟨Crc.init, Crc.init, 0xffffffff⟩
  pure ((Crc.final x.c).2, (Crc.final x.s).2, r4final x.r4)

/-! ### examples/find_identical_files.c -/

/-- examples/find_identical_files.c:17-24: the loop; fread fills the arrays of 16384 bytes as far as the files go (no read errors). -/
def compareLoop : (fuel : Nat) → (f1 f2 : List Byte) → C Nat
  | 0, _, _ => .error .hang
  | fuel + 1, f1, f2 =>
    let buf1 := f1.take 16384
    let n := buf1.length
    if n = 0 then pure 0
    else
      let buf2 := f2.take 16384
      if n ≠ buf2.length then pure 1
      else if buf1 ≠ buf2 then pure 1
      else compareLoop fuel (f1.drop n) (f2.drop n)

/-- examples/find_identical_files.c:12-28; `none` is a file that cannot be opened. The second file is read only if the first
    is not empty; closing a null stream is undefined. -/
def compare_files (f1 f2 : Option (List Byte)) : C Nat :=
  match f1, f2 with
  | some f1, some f2 => compareLoop (f1.length + 1) f1 f2
  | _, _ => .error .nullDeref

/-- examples/find_identical_files.c:50-57: whether a file present on both sides is printed. `st1` and `st2` are the sizes found. -/
def printed (mode : Nat) (st1 st2 : Option Nat) (f1 f2 : Option (List Byte)) : C Bool :=
  if Wholefile.getfilesize st1 ≠ Wholefile.getfilesize st2 then pure (decide (mode ≠ 0))
  else do pure (decide ((← compare_files f1 f2) = mode))

/-- examples/find_identical_files.c:7-10; `char` is signed and `ch` is '/'. -/
def endsWithSlash (d : List Byte) : Bool := d.getLast? = some (ch '/')

/-- examples/find_identical_files.c:43-44: the two names. -/
def fullNames (dir1 dir2 f : List Byte) : List Byte × List Byte :=
  (dir1 ++ (if endsWithSlash dir1 then [] else [ch '/']) ++ f, dir2 ++ (if endsWithSlash dir1 then [] else [ch '/']) ++ f)

end Ulz.Programs

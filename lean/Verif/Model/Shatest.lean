import Verif.Model.Sha512
import Verif.Model.Hex
import Verif.Model.Text
import Verif.Model.Wholefile
/-! Model of tests/sha512_test.c and of `crypto_hash` (src/sha512/sha512.c with TEST_SHA512 defined). The answers of the system to the
    successive calls of `read` are given by a list as in Model/Wholefile.lean. The automatic arrays have indeterminate content at
    first, given by arguments. -/
namespace Ulz.Shatest
open Ulz.Sha512

/-- src/sha512/sha512.c:140-164; `n` is the length of `m`. Result: the content of `out`. -/
def crypto_hash (out m : List Byte) : C (List Byte) := do
  let h ← crypto_hashblocks iv m
  let n := m.length &&& 127
  let x ← wrN (List.replicate 256 0) 0 (← rdN m (m.length - n) n)
  let x ← wr x n 128
  let n := tailLen n
  let x ← wr x (n - 9) ((BitVec.ofNat 64 m.length >>> 61).setWidth 8)
  let x ← ts64 x (n - 8) (BitVec.ofNat 64 m.length <<< 3)
  let h ← crypto_hashblocks h (← rdN x 0 n)
  wrN out 0 h

/-- tests/sha512_test.c:27-31 from `i` on; `n` is `64 - i`. -/
def toStrLoop (hash : List Byte) : (n i : Nat) → List Byte → C (List Byte)
  | 0, i, out => wr out (2 * i) 0
  | n + 1, i, out => do
    let b ← rd hash i
    let out ← wr out (2 * i) (← rd Hex.hextab (15 &&& (b.toNat >>> 4)))
    let out ← wr out (2 * i + 1) (← rd Hex.hextab (15 &&& b.toNat))
    toStrLoop hash n (i + 1) out

/-- tests/sha512_test.c:25-32. -/
def sha512_to_str (hash outbuf : List Byte) : C (List Byte) := toStrLoop hash 64 0 outbuf

/-- tests/sha512_test.c:45-50: the loop; `data` is what is left of the file. `none`: a read failed. -/
def hashLoop : (answers : List (Option Nat)) → (data : List Byte) → Ctx → C (Option Ctx)
  | [], _, _ => .error .hang
  | none :: _, _, _ => pure none
  | some k :: as, data, c =>
    let x := (data.take 4096).take k
    if x.length = 0 then pure (some c)
    else do hashLoop as (data.drop x.length) (← sha512_update c x)

/-- tests/sha512_test.c:35-57: the content of `outbuf` and the result. `opens` tells whether `open` succeeds. -/
def sha512_hash (opens : Bool) (data : List Byte) (answers : List (Option Nat)) (outbuf : List Byte) : C (List Byte × Bool) :=
  if !opens then pure (outbuf, false)
  else do
    match ← hashLoop answers data sha512_init with
    | none => pure (outbuf, false)
    | some c => do
      let c ← sha512_end c
      pure (← sha512_to_str c.h outbuf, true)

/-- tests/sha512_test.c:76-80: the loop, with `p` the offset in `buf`; `fuel` bounds the number of iterations. -/
def feed (buf : List Byte) : (fuel : Nat) → Ctx → (p n : Nat) → C Ctx
  | 0, c, _, n => if n = 0 then pure c else .error .hang
  | fuel + 1, c, p, n =>
    if n = 0 then pure c
    else do
      let k := if n ≥ 128 then 128 else n
      let c ← sha512_update c (← rdN buf p k)
      feed buf fuel c (p + 128) (n - k)

/-- tests/sha512_test.c:67-82: whether the three results for the first `i` bytes differ. -/
def differ (buf : List Byte) (i : Nat) (junk : List Byte) : C Bool := do
  let hash1 ← crypto_hash junk (← rdN buf 0 i)
  let c ← sha512_update sha512_init (← rdN buf 0 i)
  let hash2 := (← sha512_end c).h
  let c ← feed buf (i + 1) sha512_init 0 i
  let hash3 := (← sha512_end c).h
  pure (hash1 != hash2 || hash1 != hash3)

/-- tests/sha512_test.c:65-83 from `i` on; `n` is `8192 - i`, `rand i` the byte from `rand`. Result: the numbers printed. -/
def testLoop (rand : Nat → Byte) (junk : List Byte) : (n i : Nat) → (buf : List Byte) → C (List Nat)
  | 0, _, _ => pure []
  | n + 1, i, buf => do
    let buf ← wr buf i (rand i)
    let d ← differ buf i junk
    let r ← testLoop rand junk n (i + 1) buf
    pure (if d then i :: r else r)

/-- tests/sha512_test.c:59-85. Result: the numbers printed; the result of the function is 1 if there is one. -/
def test (rand : Nat → Byte) (buf junk : List Byte) : C (List Nat) := testLoop rand junk 8192 0 buf

/-- tests/sha512_test.c:87-98: what is printed and the result. `st` is the size found by `stat`; `answers1` and `answers2` are the
    answers of `read` for the two times the file is read; `a` is the answer of malloc. -/
def test_file (st : Option Nat) (opens : Bool) (data : List Byte) (answers1 answers2 : List (Option Nat)) (a : Alloc)
    (hash1 hash2 h : List Byte) : C (List Byte × Nat) := do
  let (hash1, _) ← sha512_hash opens data answers1 hash1
  match ← Wholefile.stringptr_fromfile st opens a data answers2 with
  | none => .error .nullDeref
  | some f => do
    let h ← crypto_hash h (← rdN f.buf 0 f.size)
    let hash2 ← sha512_to_str h hash2
    if !(← Text.strcmpEq hash1 hash2) then pure (bytes! "err at file checksum comparison", 1)
    else do pure ((← rdN hash1 0 (← Hex.strlen hash1)) ++ bytes! "\n", 0)

/-- What `test` prints for the number `i`: tests/sha512_test.c:82. `num` is the decimal text. -/
def errLine (num : List Byte) : List Byte := bytes! "err at " ++ num ++ bytes! "\n"

/-- tests/sha512_test.c:100-104: what is printed and the exit status; `file` is what `test_file` does, `none` if there is no argument. -/
def main (dec : Nat → List Byte) (rand : Nat → Byte) (buf junk : List Byte) (file : Option (C (List Byte × Nat))) : C (List Byte × Nat) := do
  let errs ← test rand buf junk
  let out := (errs.map fun i => errLine (dec i)).flatten
  if errs ≠ [] then pure (out, 1)
  else
    match file with
    | none => pure (out, 0)
    | some f => do
      let (o, r) ← f
      pure (out ++ o, r)

end Ulz.Shatest

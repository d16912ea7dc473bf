import Verif.Model.Rc4
import Verif.Model.Hex
import Verif.Model.Mem
/-! Model of tests/rc4_test.c: `rc4_n` and the decryption of CipherSaber messages. A failed `assert` is `none`;
NDEBUG is not defined. The automatic arrays have the given length and indeterminate content, here an argument. -/
namespace Ulz.Saber
open Rc4

/-- tests/rc4_test.c:24-28 from `x` on; `n` is `256 - x`. Unlike `rc4` the value of `y` is used again. -/
def mix (key : List Byte) : (n : Nat) → (x y z : Nat) → List Byte → C (List Byte × Nat)
  | 0, _, y, _, box => pure (box, y)
  | n + 1, x, y, z, box => do
    let y := (y + (← rd box x).toNat + (← rd key z).toNat) % 256
    let box ← swapAt box x y
    let z := if z + 1 = key.length then 0 else z + 1
    mix key n (x + 1) y z box

/-- tests/rc4_test.c:23-29; `k` rounds are left. -/
def rounds (key : List Byte) : (k : Nat) → (y : Nat) → List Byte → C (List Byte)
  | 0, _, box => pure box
  | k + 1, y, box => do
    let (box, y) ← mix key 256 0 y 0 box
    rounds key k y box

/-- tests/rc4_test.c:17-36. Lines 30-35 are the loop of `rc4`. -/
def rc4_n (dst src : List Byte) (len : Nat) (key : List Byte) (n : Nat) : C (List Byte) := do
  crypt src len 0 0 0 (← rounds key n 0 ((List.range 256).map (BitVec.ofNat 8))) dst

/-- tests/rc4_test.c:39-45 and 62-68: the key built from the key string and the first ten bytes of the message.
    `junk` is what the variable-length array contains at first. -/
def decKey (cmsg key : List Byte) (junk : Nat → Byte) : C (Option (List Byte)) := do
  if cmsg.length < 10 then pure none else
  let iv ← rdN cmsg 0 10
  let l ← Hex.strlen key
  if 256 ≤ l then pure none else
  let dec := (List.range (l + 10)).map junk
  let dec ← wrN dec 0 (← rdN key 0 l)
  let dec ← wrN dec l iv
  pure (some dec)

/-- tests/rc4_test.c:38-47; `clen` is the length of `cmsg`. Result: the content of `out`. -/
def ciphersaber_2_dec (out cmsg key : List Byte) (n : Nat) (junk : Nat → Byte) : C (Option (List Byte)) := do
  match ← decKey cmsg key junk with
  | none => pure none
  | some dec => do pure (some (← rc4_n out (cmsg.drop 10) (cmsg.length - 10) dec n))

/-- tests/rc4_test.c:61-71; `clen` is the length of `cmsg`. Result: the content of `out`. -/
def ciphersaber_1_dec (out cmsg key : List Byte) (junk : Nat → Byte) : C (Option (List Byte)) := do
  match ← decKey cmsg key junk with
  | none => pure none
  | some dec => do pure (some (← rc4 out (cmsg.drop 10) (cmsg.length - 10) dec))

/-- tests/rc4_test.c:49-59 and 73-82: the message in hex is decoded into an array of half its length (the return value is
    compared), decrypted and compared with the expected text. -/
def selftest (hmsg plain : List Byte) (dec : List Byte → List Byte → C (Option (List Byte))) (junk : Nat → Byte) :
    C Bool := do
  let (cmsg, r) ← Hex.hex2raw (hmsg ++ [0]) ((List.range (hmsg.length / 2)).map junk)
  if r ≠ hmsg.length / 2 then pure false else
  match ← dec ((List.range (hmsg.length / 2 - 10)).map junk) cmsg with
  | none => pure false
  | some out => do pure ((← rdN out 0 plain.length) == plain)

/-- tests/rc4_test.c:73-82. -/
def ciphersaber_1_test (junk : Nat → Byte) : C Bool :=
  selftest (bytes! "6f6d0babf3aa6719031530edb677ca74e0089dd0e7b8854356bb1448e37cdbefe7f3a84f4f5fb3fd")
    (bytes! "This is a test of CipherSaber.")
    (fun out cmsg => ciphersaber_1_dec out cmsg (bytes! "asdfg" ++ [0]) junk) junk

/-- tests/rc4_test.c:49-59. -/
def ciphersaber_2_test (junk : Nat → Byte) : C Bool :=
  selftest (bytes! "ba9ab4cffb7700e618e382e8fcc5ab9813b1abc436ba7d5cdea1a31fb72fb5763c44cfc2ac77afee19ad")
    (bytes! "This is a test of CipherSaber-2.")
    (fun out cmsg => ciphersaber_2_dec out cmsg (bytes! "asdfg" ++ [0]) 10 junk) junk

/-- tests/rc4_test.c:86-92 and 96-98 for a program with an argument: `arg` is what `argv[1]` points to. Result: what is printed
    and whether all assertions hold. -/
def mainArg (arg : List Byte) (junk : Nat → Byte) : C (List Byte × Bool) := do
  let l ← Hex.strlen arg
  let out ← rc4 ((List.range 2048).map junk) arg l (bytes! "just for test")
  let out ← wr out l 0
  let printed ← rdN out 0 l
  let t1 ← ciphersaber_1_test junk
  let t2 ← ciphersaber_2_test junk
  pure (printed, t1 && t2)

end Ulz.Saber

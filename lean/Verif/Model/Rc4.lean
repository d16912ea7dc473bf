import Verif.Base
/-! Model of src/strlib/rc4.c. -/
namespace Ulz.Rc4

/-- src/strlib/rc4.c:3, `swap(box[a], box[b])`. -/
def swapAt (box : List Byte) (a b : Nat) : C (List Byte) := do
  let tmp ← rd box a
  let box ← wr box a (← rd box b)
  wr box b tmp

/-- src/strlib/rc4.c:9-13, the iterations from `x` on; `n` is `256 - x`. -/
def schedule (key : List Byte) : (n : Nat) → (x y z : Nat) → List Byte → C (List Byte)
  | 0, _, _, _, box => pure box
  | n + 1, x, y, z, box => do
    let y := (y + (← rd box x).toNat + (← rd key z).toNat) % 256
    let box ← swapAt box x y
    let z := if z + 1 = key.length then 0 else z + 1
    schedule key n (x + 1) y z box

/-- src/strlib/rc4.c:8-13. -/
def initBox (key : List Byte) : C (List Byte) :=
  schedule key 256 0 0 0 ((List.range 256).map (BitVec.ofNat 8))

/-- src/strlib/rc4.c:15-17 and the keystream byte of line 18. -/
def step (box : List Byte) (y z : Nat) : C (List Byte × Nat × Nat × Byte) := do
  let y := (y + 1) % 256
  let z := (z + (← rd box y).toNat) % 256
  let box ← swapAt box y z
  let k ← rd box (((← rd box y).toNat + (← rd box z).toNat) % 256)
  pure (box, y, z, k)

/-- src/strlib/rc4.c:14-19 with `dst` and `src` distinct objects; `n` is `len - x`. -/
def crypt (src : List Byte) : (n : Nat) → (x y z : Nat) → (box dst : List Byte) → C (List Byte)
  | 0, _, _, _, _, dst => pure dst
  | n + 1, x, y, z, box, dst => do
    let (box, y, z, k) ← step box y z
    let dst ← wr dst x ((← rd src x) ^^^ k)
    crypt src n (x + 1) y z box dst

/-- src/strlib/rc4.c:14-19 with `dst == src` (one buffer). -/
def cryptInPlace : (n : Nat) → (x y z : Nat) → (box buf : List Byte) → C (List Byte)
  | 0, _, _, _, _, buf => pure buf
  | n + 1, x, y, z, box, buf => do
    let (box, y, z, k) ← step box y z
    let buf ← wr buf x ((← rd buf x) ^^^ k)
    cryptInPlace n (x + 1) y z box buf

/-- src/strlib/rc4.c:4-20; `keylen` is the length of `key`, `len` is given. -/
def rc4 (dst src : List Byte) (len : Nat) (key : List Byte) : C (List Byte) := do
  crypt src len 0 0 0 (← initBox key) dst

/-- `rc4(buf, buf, len, key, keylen)`. -/
def rc4InPlace (buf : List Byte) (len : Nat) (key : List Byte) : C (List Byte) := do
  cryptInPlace len 0 0 0 (← initBox key) buf

end Ulz.Rc4

import Verif.Spec.Rc4
/-! CipherSaber (ciphersaber.gurus.org): RC4 with the key followed by ten random bytes, which are sent in front of the message.
CipherSaber-2 repeats the mixing of the key `rounds` times, keeping `j`. -/
namespace Ulz.Saber.Spec
open Rc4.Spec

/-- `n` steps of mixing the key in, from state `(S, j)`, with `i` from 0 on. -/
def mix (key : List Byte) (hk : 0 < key.length) (st : (Byte → Byte) × Byte) : Nat → (Byte → Byte) × Byte
  | 0 => st
  | n + 1 =>
    let (S, j) := mix key hk st n
    let i := BitVec.ofNat 8 n
    let j' := j + S i + key[n % key.length]'(Nat.mod_lt _ hk)
    (swap S i j', j')

/-- State after mixing the key in `r` times. -/
def mixed (key : List Byte) (hk : 0 < key.length) : Nat → (Byte → Byte) × Byte
  | 0 => (id, 0)
  | r + 1 => mix key hk (mixed key hk r) 256

/-- The keystream of CipherSaber-2 with `r` rounds; CipherSaber-1 is `r = 1`. -/
def stream (key : List Byte) (hk : 0 < key.length) (r n : Nat) : List Byte := prga n (mixed key hk r).1 0 0

theorem key_pos {key iv : List Byte} (h : iv.length = 10) : 0 < (key ++ iv).length := by simp [h]

/-- The message that carries `plain`. -/
def message (key iv : List Byte) (h : iv.length = 10) (r : Nat) (plain : List Byte) : List Byte :=
  iv ++ List.zipWith (· ^^^ ·) plain (stream (key ++ iv) (key_pos h) r plain.length)

end Ulz.Saber.Spec

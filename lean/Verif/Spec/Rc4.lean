import Verif.Base
/-! The RC4 cipher as usually published: a permutation `S` of byte values, indices modulo 256. -/
namespace Ulz.Rc4.Spec

def swap (S : Byte → Byte) (i j : Byte) : Byte → Byte :=
  fun k => if k = i then S j else if k = j then S i else S k

/-- State of the key schedule after `n` rounds: (S, j). -/
def ksa (key : List Byte) (hk : 0 < key.length) : Nat → (Byte → Byte) × Byte
  | 0 => (id, 0)
  | n + 1 =>
    let (S, j) := ksa key hk n
    let i := BitVec.ofNat 8 n
    let j' := j + S i + key[n % key.length]'(Nat.mod_lt _ hk)
    (swap S i j', j')

/-- The first `n` output bytes of the generator from state (S, i, j). -/
def prga : Nat → (Byte → Byte) → Byte → Byte → List Byte
  | 0, _, _, _ => []
  | n + 1, S, i, j =>
    let i' := i + 1
    let j' := j + S i'
    let S' := swap S i' j'
    S' (S' i' + S' j') :: prga n S' i' j'

/-- The first `n` bytes of the RC4 keystream. -/
def keystream (key : List Byte) (hk : 0 < key.length) (n : Nat) : List Byte :=
  prga n (ksa key hk 256).1 0 0

end Ulz.Rc4.Spec

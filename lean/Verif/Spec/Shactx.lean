import Verif.Spec.Sha512
import Verif.Spec.Md5
import Verif.Model.Shactx
/-! What a context has seen since its last initialisation. -/
namespace Ulz.Shactx.Spec
open Ulz.Sha512.Spec

/-- The blocks that were hashed since the last init, the 256 bytes of the buffer, the length counted. -/
structure Seen where
  hashed : List Byte
  buf : List Byte
  total : Nat

/-- After init. -/
def start : Seen := ⟨[], List.replicate 256 0, 0⟩

/-- One or two blocks. -/
def tailSize (t : Nat) : Nat := if t % 128 < 112 then 128 else 256

/-- The block or two that sha512_end hashes: the buffer with 0x80 at the length modulo 128 and nine bytes of the length in bits at the end. -/
def closing (s : Seen) : List Byte :=
  (s.buf.set (s.total % 128) 0x80).take (tailSize s.total - 9) ++
    (List.range 9).map fun j => (BitVec.ofNat 128 (8 * s.total)).extractLsb' (8 * (8 - j)) 8

/-- The effect of a call. -/
def see (s : Seen) : Op → Seen
  | .init => start
  | .update b => ⟨s.hashed ++ whole b, rest b ++ s.buf.drop (rest b).length, (s.total + b.length) % 2 ^ 64⟩
  | .fin => ⟨s.hashed ++ closing s, closing s ++ s.buf.drop (tailSize s.total), s.total⟩

/-- The last one or two blocks of the padded message. -/
def lastPart (m : List Byte) : List Byte := (pad m).drop (128 * (m.length / 128))

/-- For MD5: the data since the last init, and what the calls of md5_end leave. -/
def mspec : List Byte → List MOp → List (List Byte)
  | _, [] => []
  | _, .init :: os => mspec [] os
  | m, .update d :: os => mspec (m ++ d) os
  | m, .fin _ dst :: os => (Md5.Spec.md5 m ++ dst.drop 16) :: mspec m os

/-- The destinations have 16 bytes, the local buffer 64. -/
def MFits (os : List MOp) : Prop := ∀ junk dst, MOp.fin junk dst ∈ os → junk.length = 64 ∧ 16 ≤ dst.length

end Ulz.Shactx.Spec

import Verif.Spec.Md5
import Verif.Spec.Sha512
/-! The padding as a function of the length alone, and the words of a digest. -/
namespace Ulz.Md5.Spec

/-- What RFC 1321 appends to every message of `n` bytes: it does not depend on the message. -/
def suffix (n : Nat) : List Byte :=
  [0x80] ++ List.replicate ((119 - n % 64) % 64) 0 ++
    (List.range 8).map fun j => (BitVec.ofNat 64 (8 * n)).extractLsb' (8 * j) 8

/-- The four words that a digest of 16 bytes shows. -/
def regs (d : List Byte) : Regs := (word d 0, word d 1, word d 2, word d 3)

end Ulz.Md5.Spec

namespace Ulz.Sha512.Spec

/-- What FIPS 180-4 appends to every message of `n` bytes. -/
def suffix (n : Nat) : List Byte :=
  [0x80] ++ List.replicate ((239 - n % 128) % 128) 0 ++
    (List.range 16).map fun j => (BitVec.ofNat 128 (8 * n)).extractLsb' (8 * (15 - j)) 8

end Ulz.Sha512.Spec

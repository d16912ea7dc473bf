import Verif.Base
/-! Cutting a message into blocks (shared by the hash functions). -/
namespace Ulz

/-- The first `n` blocks of `sz` bytes of `m`. -/
def blocks (sz : Nat) : Nat → List Byte → List (List Byte)
  | 0, _ => []
  | n + 1, m => m.take sz :: blocks sz n (m.drop sz)

end Ulz

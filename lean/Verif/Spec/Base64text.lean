import Verif.Spec.Base64
import Verif.Model.Base64
/-! What it means that a text is decoded to given data. -/
namespace Ulz.Base64.Spec

/-- `base64dec` decodes the text `s` to `x`: with any destination of at least `BASE64DEC_BUFSIZE` bytes, and whatever follows the
    terminator of the text, it returns the number of bytes of `x` and stores `x`. -/
def Decodes (s x : List Byte) : Prop :=
  ∀ junk dst : List Byte, s.length / 4 * 3 + 1 ≤ dst.length →
    ∃ d, base64dec dst (s ++ 0 :: junk) dst.length = .ok (d, x.length) ∧ d.length = dst.length ∧ d.take x.length = x

/-- The number of `=` in the text of `n` bytes: RFC 4648 section 4. -/
def padOf (n : Nat) : Nat := (3 - n % 3) % 3

end Ulz.Base64.Spec

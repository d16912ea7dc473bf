import Verif.Spec.Crc
import Mathlib.Algebra.Polynomial.Div
import Mathlib.Data.ZMod.Basic
/-! The CRC as a polynomial over the field with two elements. -/
namespace Ulz.Crc.Spec
open Polynomial

/-- The polynomial whose coefficients are the given bits, the first bit being that of the highest power. -/
noncomputable def bitPoly (bs : List Bool) : (ZMod 2)[X] := bs.foldl (fun q b => q * X + Polynomial.C (if b then 1 else 0)) 0

/-- The generator polynomials `X^32 + ...` with the coefficients written in hexadecimal: CRC-32 0x104C11DB7 and CRC-32C
    0x11EDC6F41. -/
noncomputable def gen (coeffs : W32) : (ZMod 2)[X] := X ^ 32 + bitPoly ((List.range 32).map coeffs.getMsbD)
noncomputable def genCrc32 : (ZMod 2)[X] := gen 0x04C11DB7
noncomputable def genCrc32c : (ZMod 2)[X] := gen 0x1EDC6F41

/-- 32 ones: `X^31 + X^30 + ... + 1`. -/
noncomputable def ones : (ZMod 2)[X] := bitPoly (List.replicate 32 true)

/-- The algebraic definition of the CRC with initial value and final complement: with `c` appended to the message, and the
    first 32 and the last 32 bits of the result complemented, the bits form a multiple of the generator. -/
def IsCrc (P : (ZMod 2)[X]) (m c : List Byte) : Prop :=
  P ∣ (bitPoly (bits m) * X ^ 32 + bitPoly (bits c)) + ones * X ^ (8 * m.length) + ones

/-- What include/crc32_impl.h:42-49 says: the bits 1[buf]...[buf][cbuf] form a multiple of the generator. -/
def Documented (P : (ZMod 2)[X]) (m c : List Byte) : Prop := P ∣ bitPoly (true :: bits m ++ bits c)

end Ulz.Crc.Spec

import Verif.Model.Crc
/-! Specification of reflected 32-bit CRCs, bit by bit. -/
namespace Ulz.Crc.Spec

/-- The published bit-reversed polynomials of CRC-32 (IEEE 802.3) and CRC-32C (Castagnoli). -/
def revCrc32 : W32 := 0xEDB88320
def revCrc32c : W32 := 0x82F63B78

/-- Feeding one bit into the shift register. -/
def feed (p s : W32) (b : Bool) : W32 := if s.getLsbD 0 ≠ b then (s >>> 1) ^^^ p else s >>> 1

/-- The bits of a message in transmission order: bytes in order, least significant bit first. -/
def bits (m : List Byte) : List Bool := m.flatMap fun c => (List.range 8).map fun i => c.getLsbD i

/-- The CRC of a message: initial value all ones, final complement. -/
def crc (p : W32) (m : List Byte) : W32 := ~~~ (bits m).foldl (feed p) 0xffffffff

/-- A word as four bytes, least significant first. -/
def le32 (s : W32) : List Byte :=
  [s.extractLsb' 0 8, s.extractLsb' 8 8, s.extractLsb' 16 8, s.extractLsb' 24 8]

end Ulz.Crc.Spec

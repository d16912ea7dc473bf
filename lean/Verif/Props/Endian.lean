import Verif.Model.Endian
/-! Property C74: byte swapping. -/
namespace Ulz.Props
open Ulz.Endian

/-- The byte number `k` of a number, 0 being the least significant one. -/
def byteOf {w : Nat} (x : BitVec w) (k : Nat) : BitVec 8 := x.extractLsb' (8 * k) 8

/-- The bits of a swapped number. -/
theorem byteswap16_bit (x : BitVec 16) (i : Nat) (h : i < 16) :
    (byteswap16 x).getLsbD i = x.getLsbD (8 * (1 - i / 8) + i % 8) := by
  unfold byteswap16
  match i, h with
  | 0, _ | 1, _ | 2, _ | 3, _ | 4, _ | 5, _ | 6, _ | 7, _ | 8, _ | 9, _ | 10, _ | 11, _ | 12, _ | 13, _ | 14, _ | 15, _ => simp
  | i + 16, h => omega

/-- The bits of a swapped number. -/
theorem byteswap32_bit (x : BitVec 32) (i : Nat) (h : i < 32) :
    (byteswap32 x).getLsbD i = x.getLsbD (8 * (3 - i / 8) + i % 8) := by
  unfold byteswap32
  match i, h with
  | 0, _ | 1, _ | 2, _ | 3, _ | 4, _ | 5, _ | 6, _ | 7, _ | 8, _ | 9, _ | 10, _ | 11, _ | 12, _ | 13, _ | 14, _ | 15, _ | 16, _ | 17, _ | 18, _ | 19, _ | 20, _ | 21, _ | 22, _ | 23, _ | 24, _ | 25, _ | 26, _ | 27, _ | 28, _ | 29, _ | 30, _ | 31, _ => simp
  | i + 32, h => omega

/-- The bits of a swapped number. -/
theorem byteswap64_bit (little : Bool) (x : BitVec 64) (i : Nat) (h : i < 64) :
    (byteswap64 little x).getLsbD i = x.getLsbD (8 * (7 - i / 8) + i % 8) := by
  have e : byteswap64 little x = (byteswap32 ((x >>> 32).setWidth 32)).setWidth 64 ||| ((byteswap32 (x.setWidth 32)).setWidth 64 <<< 32) := by
    cases little <;> rfl
  rw [e]
  simp only [BitVec.getLsbD_or, BitVec.getLsbD_setWidth, BitVec.getLsbD_shiftLeft, h, decide_true, Bool.true_and]
  by_cases hi : i < 32
  · rw [byteswap32_bit _ _ hi, BitVec.getLsbD_setWidth, BitVec.getLsbD_ushiftRight]
    simp only [hi, decide_true, Bool.not_true, Bool.false_and, Bool.or_false, show 8 * (3 - i / 8) + i % 8 < 32 by omega, Bool.true_and]
    congr 1; omega
  · rw [BitVec.getLsbD_of_ge _ _ (show 32 ≤ i by omega), byteswap32_bit _ _ (by omega), BitVec.getLsbD_setWidth]
    simp only [hi, decide_false, Bool.not_false, Bool.true_and, Bool.false_or, show i - 32 < 64 by omega, decide_true,
      show 8 * (3 - (i - 32) / 8) + (i - 32) % 8 < 32 by omega]
    congr 1; omega

/-- C74: `byteswap16` reverses the order of the bytes. -/
theorem byteswap16_bytes (x : BitVec 16) (k : Nat) (hk : k < 2) : byteOf (byteswap16 x) k = byteOf x (1 - k) := by
  apply BitVec.eq_of_getLsbD_eq
  intro i hi
  unfold byteOf
  rw [BitVec.getLsbD_extractLsb', BitVec.getLsbD_extractLsb', byteswap16_bit _ _ (by omega)]
  congr 2; omega

/-- C74: swapping twice gives the number back. -/
theorem byteswap16_involution (x : BitVec 16) : byteswap16 (byteswap16 x) = x := by
  apply BitVec.eq_of_getLsbD_eq
  intro i hi
  rw [byteswap16_bit _ _ hi, byteswap16_bit _ _ (by omega)]
  congr 1; omega

/-- C74: `byteswap32` reverses the order of the bytes. -/
theorem byteswap32_bytes (x : BitVec 32) (k : Nat) (hk : k < 4) : byteOf (byteswap32 x) k = byteOf x (3 - k) := by
  apply BitVec.eq_of_getLsbD_eq
  intro i hi
  unfold byteOf
  rw [BitVec.getLsbD_extractLsb', BitVec.getLsbD_extractLsb', byteswap32_bit _ _ (by omega)]
  congr 2; omega

/-- C74: swapping twice gives the number back. -/
theorem byteswap32_involution (x : BitVec 32) : byteswap32 (byteswap32 x) = x := by
  apply BitVec.eq_of_getLsbD_eq
  intro i hi
  rw [byteswap32_bit _ _ hi, byteswap32_bit _ _ (by omega)]
  congr 1; omega

/-- C74: `byteswap64` reverses the order of the bytes. -/
theorem byteswap64_bytes (little : Bool) (x : BitVec 64) (k : Nat) (hk : k < 8) : byteOf (byteswap64 little x) k = byteOf x (7 - k) := by
  apply BitVec.eq_of_getLsbD_eq
  intro i hi
  unfold byteOf
  rw [BitVec.getLsbD_extractLsb', BitVec.getLsbD_extractLsb', byteswap64_bit _ _ _ (by omega)]
  congr 2; omega

/-- C74: swapping twice gives the number back. -/
theorem byteswap64_involution (little : Bool) (x : BitVec 64) : byteswap64 little (byteswap64 little x) = x := by
  apply BitVec.eq_of_getLsbD_eq
  intro i hi
  rw [byteswap64_bit _ _ _ hi, byteswap64_bit _ _ _ (by omega)]
  congr 1; omega

/-- The byte at offset `k` of an integer of `n` bytes in the memory of a machine. -/
def inMemory (little : Bool) (n : Nat) (x : BitVec (8 * n)) (k : Nat) : BitVec 8 := if little then byteOf x k else byteOf x (n - 1 - k)

/-- C74: on either kind of machine, what `le32` gives is stored with the least significant byte of the number first. -/
theorem le32_in_memory (little : Bool) (x : BitVec 32) (k : Nat) (hk : k < 4) : inMemory little 4 (le32 little x) k = byteOf x k := by
  cases little
  · simp only [inMemory, le32, Bool.false_eq_true, if_false]
    rw [byteswap32_bytes _ _ (by omega)]
    congr 1; omega
  · rfl

theorem le16_in_memory (little : Bool) (x : BitVec 16) (k : Nat) (hk : k < 2) : inMemory little 2 (le16 little x) k = byteOf x k := by
  cases little
  · simp only [inMemory, le16, Bool.false_eq_true, if_false]
    rw [byteswap16_bytes _ _ (by omega)]
    congr 1; omega
  · rfl

example : inMemory false 4 (le32 false 0x11223344) 0 = 0x44 := by decide
example : byteswap32 0x11223344 = 0x44332211 ∧ byteswap64 true 0x1122334455667788 = 0x8877665544332211 := by decide

end Ulz.Props

import Verif.Props.Crc
import Verif.Proofs.CrcPoly
/-! The CRC functions as polynomial arithmetic, and the errors they detect (C100–C102). -/
namespace Ulz.Props
open Ulz.Crc Ulz.Crc.Spec

theorem le32_inj {a b : W32} (h : le32 a = le32 b) : a = b := by
  rw [← word_le32 a, ← word_le32 b, h]

/-- C100, CRC-32: two flipped bits go unnoticed exactly when their distance is a multiple of 2^32 - 1 bits (512 MB). -/
theorem crc32_double_bit (m n : List (List Byte)) {A B D : List Bool} {a b : Bool}
    (hm : bits m.flatten = A ++ a :: B ++ b :: D) (hn : bits n.flatten = A ++ (!a) :: B ++ (!b) :: D) :
    run (some (tables polyCrc32)) m = run (some (tables polyCrc32)) n ↔ (2 ^ 32 - 1) ∣ B.length + 1 := by
  rw [crc32_correct, crc32_correct, show 2 ^ 32 - 1 = 4294967295 by norm_num, ← period32, ← double_bit (p := revCrc32) (by decide) A B D a b 0xffffffff, ← hm, ← hn]
  constructor
  · intro h
    injection h with h
    exact BitVec.not_inj.1 (le32_inj h)
  · intro h
    unfold crc
    rw [h]

/-- C100, CRC-32C: exactly when their distance is a multiple of 2^31 - 1 bits (256 MB). -/
theorem crc32c_double_bit (m n : List (List Byte)) {A B D : List Bool} {a b : Bool}
    (hm : bits m.flatten = A ++ a :: B ++ b :: D) (hn : bits n.flatten = A ++ (!a) :: B ++ (!b) :: D) :
    run (some (tables polyCrc32c)) m = run (some (tables polyCrc32c)) n ↔ (2 ^ 31 - 1) ∣ B.length + 1 := by
  rw [crc32c_correct, crc32c_correct, show 2 ^ 31 - 1 = 2147483647 by norm_num, ← period32c, ← double_bit (p := revCrc32c) (by decide) A B D a b 0xffffffff, ← hm, ← hn]
  constructor
  · intro h
    injection h with h
    exact BitVec.not_inj.1 (le32_inj h)
  · intro h
    unfold crc
    rw [h]

/-- Two flipped bits far apart, in a message of three blocks. -/
example : run (some (tables polyCrc32)) [bytes! "ab", bytes! "0123456789", bytes! "c"]
    ≠ run (some (tables polyCrc32)) [bytes! "`b0123", bytes! "456789", bytes! "b"] := by
  refine fun h => absurd ((crc32_double_bit _ _ (A := []) (a := true) (B := bits (bytes! "ab0123456789") |>.drop 1) (b := true)
    (D := bits (bytes! "c") |>.drop 1) (by decide) (by decide)).1 h) (by decide)

/-- C100: an odd number of flipped bits never goes unnoticed by CRC-32C, wherever they are. -/
theorem crc32c_odd_errors (m n : List (List Byte)) (hl : m.flatten.length = n.flatten.length)
    (hodd : ((bits m.flatten).zip (bits n.flatten)).countP (fun q => q.1 ≠ q.2) % 2 = 1) :
    run (some (tables polyCrc32c)) m ≠ run (some (tables polyCrc32c)) n := by
  rw [crc32c_correct, crc32c_correct]
  intro h
  injection h with h
  have h := BitVec.not_inj.1 (le32_inj h)
  have e := congrArg (par 32) h
  rw [par_feeds, par_feeds] at e
  have e2 := odd_differences (bits m.flatten) (bits n.flatten) (by rw [bits_length, bits_length, hl])
  rw [decide_eq_true hodd] at e2
  revert e e2
  cases par 32 0xffffffff <;> cases odd (bits m.flatten) <;> cases odd (bits n.flatten) <;> decide

example : run (some (tables polyCrc32c)) [bytes! "abc", bytes! "d"] ≠ run (some (tables polyCrc32c)) [bytes! "a`ca"] :=
  crc32c_odd_errors _ _ (by decide) (by decide)

/-- CRC-32 does not have this property: its 33-bit polynomial has an odd number of terms, so the undetected burst of
    `crc32_misses_33_bit_burst` consists of an odd number of flipped bits. -/
theorem crc32_misses_odd_errors :
    run (some (tables polyCrc32)) [[0, 0, 0, 0, 0]] = run (some (tables polyCrc32)) [[0x41, 0x06, 0x71, 0xdb, 0x01]]
    ∧ ((bits [0, 0, 0, 0, 0]).zip (bits [0x41, 0x06, 0x71, 0xdb, 0x01])).countP (fun q => q.1 ≠ q.2) % 2 = 1 :=
  ⟨crc32_misses_33_bit_burst, by decide⟩

/-- C101, CRC-32: the four bytes stored are the only ones which, appended to the message, give a multiple of the generator
    polynomial once the first and the last 32 bits are complemented. -/
theorem crc32_is_polynomial_remainder (chunks : List (List Byte)) (c : List Byte) :
    run (some (tables polyCrc32)) chunks = .ok c ↔ c.length = 4 ∧ IsCrc genCrc32 chunks.flatten c := by
  rw [crc32_correct, gen32]
  constructor
  · intro h
    injection h with h
    subst h
    exact ⟨rfl, (isCrc_iff _ _ _).2 rfl⟩
  · rintro ⟨hl, h⟩
    obtain ⟨s, rfl⟩ := bits_word c hl
    rw [(isCrc_iff _ _ _).1 h]

/-- C101, CRC-32C. -/
theorem crc32c_is_polynomial_remainder (chunks : List (List Byte)) (c : List Byte) :
    run (some (tables polyCrc32c)) chunks = .ok c ↔ c.length = 4 ∧ IsCrc genCrc32c chunks.flatten c := by
  rw [crc32c_correct, gen32c]
  constructor
  · intro h
    injection h with h
    subst h
    exact ⟨rfl, (isCrc_iff _ _ _).2 rfl⟩
  · rintro ⟨hl, h⟩
    obtain ⟨s, rfl⟩ := bits_word c hl
    rw [(isCrc_iff _ _ _).1 h]

example : IsCrc genCrc32 (bytes! "123456789") [0x26, 0x39, 0xf4, 0xcb] :=
  ((crc32_is_polynomial_remainder [bytes! "1234", bytes! "56789"] _).1 (by decide +kernel)).2

/-- C102, CRC-32C: what crc32_impl.h says about the bytes stored is true of no message at all. -/
theorem crc32c_documentation_false (chunks : List (List Byte)) (c : List Byte)
    (h : run (some (tables polyCrc32c)) chunks = .ok c) : ¬ Documented genCrc32c chunks.flatten c := by
  rw [crc32c_correct] at h
  injection h with h
  subst h
  rw [gen32c, documented_iff _ (by decide)]
  exact documented32c _

/-- C102, CRC-32: it is true exactly of the messages whose length in bytes leaves the remainder 1840962096 modulo 2^32 - 1;
    no message shorter than 1.7 GB is among them. -/
theorem crc32_documentation (chunks : List (List Byte)) (c : List Byte)
    (h : run (some (tables polyCrc32)) chunks = .ok c) :
    Documented genCrc32 chunks.flatten c ↔ chunks.flatten.length % (2 ^ 32 - 1) = 1840962096 := by
  rw [crc32_correct] at h
  injection h with h
  subst h
  rw [gen32, documented_iff _ (by decide), documented32, show 2 ^ 32 - 1 = 4294967295 by norm_num]
  generalize chunks.flatten.length = L
  exact doc_len L

example : ¬ Documented genCrc32 (bytes! "123456789") [0x26, 0x39, 0xf4, 0xcb] := fun h =>
  absurd ((crc32_documentation [bytes! "1234", bytes! "56789"] _ (by decide +kernel)).1 h) (by decide)

end Ulz.Props

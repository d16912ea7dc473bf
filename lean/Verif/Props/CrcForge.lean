import Verif.Proofs.CrcForge
import Verif.Props.CrcPoly
/-! C198: what the CRC does not protect against, exactly: deliberate changes, and zeros at the ends. -/
namespace Ulz.Props
open Ulz.Crc Ulz.Crc.Spec

private theorem both {poly p : W32} (hp : (poly, p) = (polyCrc32, revCrc32) ∨ (poly, p) = (polyCrc32c, revCrc32c)) :
    p.getLsbD 31 = true ∧ ∀ chunks, run (some (tables poly)) chunks = .ok (le32 (crc p chunks.flatten)) := by
  rcases hp with hp | hp <;> (injection hp with h1 h2; subst h1; subst h2)
  · exact ⟨by decide, crc32_correct⟩
  · exact ⟨by decide, crc32c_correct⟩

/-- C198. Four bytes that may be chosen freely, anywhere in a message, give it any CRC; there is exactly one choice. -/
theorem crc_forge {poly p : W32} (hp : (poly, p) = (polyCrc32, revCrc32) ∨ (poly, p) = (polyCrc32c, revCrc32c))
    (before after : List (List Byte)) (c : List Byte) (hc : c.length = 4) :
    ∃ w, w.length = 4 ∧ run (some (tables poly)) (before ++ w :: after) = .ok c ∧
      ∀ w', w'.length = 4 → run (some (tables poly)) (before ++ w' :: after) = .ok c → w' = w := by
  obtain ⟨h31, hrun⟩ := both hp
  obtain ⟨y, rfl⟩ := bits_word c hc
  obtain ⟨w, hw⟩ := forge h31 before.flatten after.flatten y
  refine ⟨le32 w, rfl, ?_, ?_⟩
  · rw [hrun]
    simp only [List.flatten_append, List.flatten_cons, ← List.append_assoc]
    rw [hw]
  · intro w' hw' h'
    obtain ⟨v, rfl⟩ := bits_word w' hw'
    apply Decidable.byContradiction
    intro hne
    have hb : ∀ v : W32, bits (before ++ le32 v :: after).flatten = bits before.flatten ++ bits (le32 v) ++ bits after.flatten := by
      intro v
      simp only [List.flatten_append, List.flatten_cons, bits_append, List.append_assoc]
    refine crc_detects_bursts hp _ _ (hb v) (hb w) (by rw [bits_length, bits_length]; rfl) (by rw [bits_length]; exact Nat.le_refl 32) ?_ ?_
    · intro h
      apply hne
      have := congrArg word h
      rw [word_le32, word_le32] at this
      rw [this]
    · rw [h', hrun]
      simp only [List.flatten_append, List.flatten_cons, ← List.append_assoc]
      rw [hw]

/-- The text "attack at dawn" followed by four bytes that give it the CRC-32 of "retreat at once". -/
example : run (some (tables polyCrc32)) [bytes! "attack at dawn", [0x1a, 0xe1, 0x04, 0x09]] =
    run (some (tables polyCrc32)) [bytes! "retreat at once"] := by decide +kernel

/-- C198. The CRCs of messages of equal length are computed by xor: the CRC of the bytewise xor of three messages is the xor of their CRCs. -/
theorem crc_xor {poly p : W32} (hp : (poly, p) = (polyCrc32, revCrc32) ∨ (poly, p) = (polyCrc32c, revCrc32c))
    (a b d : List Byte) (hb : b.length = a.length) (hd : d.length = a.length) (ca cb cd : List Byte)
    (ha : run (some (tables poly)) [a] = .ok ca) (hb' : run (some (tables poly)) [b] = .ok cb) (hd' : run (some (tables poly)) [d] = .ok cd) :
    run (some (tables poly)) [List.zipWith (· ^^^ ·) (List.zipWith (· ^^^ ·) a b) d] =
      .ok (List.zipWith (· ^^^ ·) (List.zipWith (· ^^^ ·) ca cb) cd) := by
  obtain ⟨_, hrun⟩ := both hp
  rw [hrun] at ha hb' hd' ⊢
  simp only [List.flatten_cons, List.flatten_nil, List.append_nil] at ha hb' hd' ⊢
  rw [← Except.ok.inj ha, ← Except.ok.inj hb', ← Except.ok.inj hd']
  have := crc_xor3 p a b d hb.symm hd.symm
  unfold xorB at this
  rw [this]
  simp only [le32, List.zipWith_cons_cons, List.zipWith_nil_left, BitVec.extractLsb'_xor]

example : (run (some (tables polyCrc32)) [bytes! "abc"], run (some (tables polyCrc32)) [bytes! "xyz"], run (some (tables polyCrc32)) [bytes! "123"],
    run (some (tables polyCrc32)) [[0x28, 0x29, 0x2a]]) = (.ok [0xc2, 0x41, 0x24, 0x35], .ok [0x67, 0xba, 0x8e, 0xeb], .ok [0xd2, 0x63, 0x48, 0x88],
    .ok [0x77, 0x98, 0xe2, 0x56]) := by decide +kernel

/-- C198. The CRC of two messages one after the other depends on nothing but their CRCs and the length of the second. -/
theorem crc_combine {poly p : W32} (hp : (poly, p) = (polyCrc32, revCrc32) ∨ (poly, p) = (polyCrc32c, revCrc32c))
    (a a' b b' : List (List Byte)) (ha : run (some (tables poly)) a = run (some (tables poly)) a')
    (hb : run (some (tables poly)) b = run (some (tables poly)) b') (hl : b.flatten.length = b'.flatten.length) :
    run (some (tables poly)) (a ++ b) = run (some (tables poly)) (a' ++ b') := by
  obtain ⟨_, hrun⟩ := both hp
  simp only [hrun] at ha hb ⊢
  have ha := le32_inj (Except.ok.inj ha)
  have hb := le32_inj (Except.ok.inj hb)
  rw [List.flatten_append, List.flatten_append, combine, combine, ha, hb, hl]

/-- C198, CRC-32: a change of a message that keeps its length goes unnoticed exactly if the difference of the messages, as a polynomial, is a
    multiple of the generator. -/
theorem crc32_same_iff (m n : List (List Byte)) (hl : m.flatten.length = n.flatten.length) :
    run (some (tables polyCrc32)) m = run (some (tables polyCrc32)) n ↔ genCrc32 ∣ bitPoly (bits m.flatten) - bitPoly (bits n.flatten) := by
  rw [crc32_correct, crc32_correct, gen32, CharTwo.sub_eq_add, ← same_iff _ (by decide) _ _ hl]
  exact ⟨fun h => le32_inj (Except.ok.inj h), fun h => by rw [h]⟩

/-- C198, CRC-32C. -/
theorem crc32c_same_iff (m n : List (List Byte)) (hl : m.flatten.length = n.flatten.length) :
    run (some (tables polyCrc32c)) m = run (some (tables polyCrc32c)) n ↔ genCrc32c ∣ bitPoly (bits m.flatten) - bitPoly (bits n.flatten) := by
  rw [crc32c_correct, crc32c_correct, gen32c, CharTwo.sub_eq_add, ← same_iff _ (by decide) _ _ hl]
  exact ⟨fun h => le32_inj (Except.ok.inj h), fun h => by rw [h]⟩

private theorem trailing (p : W32) (m : List Byte) (k : Nat) :
    le32 (crc p (m ++ List.replicate k 0)) = le32 (crc p m) ↔ shn p (8 * k) (~~~ crc p m) = ~~~ crc p m := by
  unfold crc
  rw [bits_append, List.foldl_append, bits_zeros, feed_false, BitVec.not_not]
  exact ⟨fun h => BitVec.not_inj.1 (le32_inj h), fun h => by rw [h]⟩

private theorem leading (p : W32) (hp : p.getLsbD 31 = true) (m : List Byte) (k : Nat) :
    le32 (crc p (List.replicate k 0 ++ m)) = le32 (crc p m) ↔ shn p (8 * k) 0xffffffff = 0xffffffff := by
  unfold crc
  rw [bits_append, List.foldl_append, bits_zeros, feed_false]
  constructor
  · intro h
    have h := BitVec.not_inj.1 (le32_inj h)
    have h1 := feed_zeros p (bits m) (shn p (8 * k) 0xffffffff) 0xffffffff
    rw [h, BitVec.xor_self] at h1
    exact BitVec.xor_eq_zero_iff.1 (shn_inj_zero hp _ h1.symm)
  · intro h; rw [h]

/-- C198, CRC-32: zero bytes added at the end go unnoticed exactly if the CRC is ff ff ff ff, or their number is a multiple of 2^32 - 1. -/
theorem crc32_trailing_zeros (m : List (List Byte)) (k : Nat) (c : List Byte) (h : run (some (tables polyCrc32)) m = .ok c) :
    run (some (tables polyCrc32)) (m ++ [List.replicate k 0]) = .ok c ↔ c = [0xff, 0xff, 0xff, 0xff] ∨ (2 ^ 32 - 1) ∣ k := by
  rw [crc32_correct] at h ⊢
  rw [← Except.ok.inj h]
  simp only [List.flatten_append, List.flatten_cons, List.flatten_nil, List.append_nil]
  rw [Except.ok.injEq, trailing, fixed32]
  refine or_congr ?_ ?_
  · rw [show ([0xff, 0xff, 0xff, 0xff] : List Byte) = le32 (~~~ 0#32) by decide]
    constructor
    · intro h; rw [← h, BitVec.not_not]
    · intro h; rw [le32_inj h, BitVec.not_not]
  · rw [show (2 ^ 32 - 1 : Nat) = 4294967295 by norm_num]
    exact Nat.Coprime.dvd_mul_left (by norm_num)

/-- C198, CRC-32C: also if the CRC is 50 d2 5b 03; and multiples of 2^31 - 1 are enough. -/
theorem crc32c_trailing_zeros (m : List (List Byte)) (k : Nat) (c : List Byte) (h : run (some (tables polyCrc32c)) m = .ok c) :
    run (some (tables polyCrc32c)) (m ++ [List.replicate k 0]) = .ok c ↔
      c = [0xff, 0xff, 0xff, 0xff] ∨ c = [0x50, 0xd2, 0x5b, 0x03] ∨ (2 ^ 31 - 1) ∣ k := by
  rw [crc32c_correct] at h ⊢
  rw [← Except.ok.inj h]
  simp only [List.flatten_append, List.flatten_cons, List.flatten_nil, List.append_nil]
  rw [Except.ok.injEq, trailing, fixed32c]
  have key : ∀ x y : W32, ~~~ x = y ↔ le32 x = le32 (~~~ y) := by
    intro x y
    constructor
    · rintro rfl; rw [BitVec.not_not]
    · intro h; rw [le32_inj h, BitVec.not_not]
  refine or_congr ?_ (or_congr ?_ ?_)
  · rw [key]; exact Iff.rfl
  · rw [key]
    rw [show ([0x50, 0xd2, 0x5b, 0x03] : List Byte) = le32 (~~~ still) by decide]
  · rw [show (2 ^ 31 - 1 : Nat) = 2147483647 by norm_num]
    exact Nat.Coprime.dvd_mul_left (by norm_num)

/-- Zero bytes after the four bytes ff ff ff ff, whose CRC-32 is ff ff ff ff, or after 50 d2 5b 03 in CRC-32C. -/
example : (run (some (tables polyCrc32)) [[0xff, 0xff, 0xff, 0xff]], run (some (tables polyCrc32)) [[0xff, 0xff, 0xff, 0xff, 0, 0, 0]],
    run (some (tables polyCrc32)) [bytes! "a"], run (some (tables polyCrc32)) [bytes! "a", [0]]) =
    (.ok [0xff, 0xff, 0xff, 0xff], .ok [0xff, 0xff, 0xff, 0xff], .ok [0x43, 0xbe, 0xb7, 0xe8], .ok [0x19, 0x48, 0x3f, 0x3d]) := by decide +kernel
example : (run (some (tables polyCrc32c)) [[0x50, 0xd2, 0x5b, 0x03]], run (some (tables polyCrc32c)) [[0x50, 0xd2, 0x5b, 0x03], [0, 0, 0, 0, 0]]) =
    (.ok [0x50, 0xd2, 0x5b, 0x03], .ok [0x50, 0xd2, 0x5b, 0x03]) := by decide +kernel

/-- C198. Zero bytes put in front of a message go unnoticed exactly if their number is a multiple of 2^32 - 1 (CRC-32). -/
theorem crc32_leading_zeros (m : List (List Byte)) (k : Nat) :
    run (some (tables polyCrc32)) (List.replicate k 0 :: m) = run (some (tables polyCrc32)) m ↔ (2 ^ 32 - 1) ∣ k := by
  rw [crc32_correct, crc32_correct, List.flatten_cons, Except.ok.injEq, leading _ (by decide), fixed32,
    show (2 ^ 32 - 1 : Nat) = 4294967295 by norm_num, Nat.Coprime.dvd_mul_left (by norm_num)]
  exact or_iff_right (by decide)

/-- C198. The same for CRC-32C, where multiples of 2^31 - 1 are enough. -/
theorem crc32c_leading_zeros (m : List (List Byte)) (k : Nat) :
    run (some (tables polyCrc32c)) (List.replicate k 0 :: m) = run (some (tables polyCrc32c)) m ↔ (2 ^ 31 - 1) ∣ k := by
  rw [crc32c_correct, crc32c_correct, List.flatten_cons, Except.ok.injEq, leading _ (by decide), fixed32c,
    show (2 ^ 31 - 1 : Nat) = 2147483647 by norm_num, Nat.Coprime.dvd_mul_left (by norm_num)]
  exact ⟨fun h => h.elim (absurd · (by decide)) fun h => h.elim (absurd · (by decide)) id, fun h => .inr (.inr h)⟩

end Ulz.Props

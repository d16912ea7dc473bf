import Verif.Proofs.Rc4
/-! # C07: rc4 -/
namespace Ulz.Props
open Rc4 Rc4.Spec

/-- **C07** `rc4` stores `src` xor the RC4 keystream in the first `src.length` bytes of `dst`, safely. -/
theorem rc4_correct (dst src key : List Byte) (hk : 0 < key.length) (hd : src.length ≤ dst.length) :
    rc4 dst src src.length key =
      .ok (put dst 0 (List.zipWith (· ^^^ ·) src (keystream key hk src.length))) := by
  obtain ⟨box, hb, hrep⟩ := initBox_rep key hk
  have := crypt_put dst src src.length 0 0 0 box _ [] rfl (by omega) (by omega) hrep
  unfold rc4
  rw [hb, ok_bind]
  simpa [keystream] using this

-- The published test vector, run on the model.
example : rc4 (List.replicate 10 7) (bytes! "Plaintext") 9 (bytes! "Key") =
    .ok [0xBB, 0xF3, 0x16, 0xE8, 0xD9, 0x40, 0xAF, 0x0A, 0xD3, 7] := by decide +kernel

/-- **C07** Working in place gives the same bytes. -/
theorem rc4_in_place (buf key : List Byte) (hk : 0 < key.length) :
    rc4InPlace buf buf.length key = .ok (List.zipWith (· ^^^ ·) buf (keystream key hk buf.length)) := by
  obtain ⟨box, hb, hrep⟩ := initBox_rep key hk
  have := cryptInPlace_put buf buf.length 0 0 0 box _ [] rfl (by omega) hrep
  unfold rc4InPlace
  rw [hb, ok_bind]
  simp only [put_nil, List.nil_append, List.drop_zero] at this
  rw [show (0 : Byte).toNat = 0 from rfl] at this
  rw [this, put_zero, List.drop_eq_nil_of_le]
  · simp [keystream]
  · simp [prga_length]

/-- **C07** Applying `rc4` twice with the same key restores the input. -/
theorem rc4_involution (d1 d2 src key : List Byte) (hk : 0 < key.length)
    (h1 : src.length ≤ d1.length) (h2 : src.length ≤ d2.length) :
    ∃ e, rc4 d1 src src.length key = .ok e ∧ rc4 d2 e src.length key = .ok (put d2 0 src) := by
  refine ⟨_, rc4_correct d1 src key hk h1, ?_⟩
  obtain ⟨box, hb, hrep⟩ := initBox_rep key hk
  have hl : (List.zipWith (· ^^^ ·) src (keystream key hk src.length)).length = src.length := by
    simp [keystream, prga_length]
  unfold rc4
  rw [hb, ok_bind]
  have := crypt_put d2 (put d1 0 (List.zipWith (· ^^^ ·) src (keystream key hk src.length)))
    src.length 0 0 0 box _ [] rfl (by rw [put_length (by omega)]; omega) (by omega) hrep
  simp only [put_nil, List.nil_append, List.drop_zero] at this
  rw [show (0 : Byte).toNat = 0 from rfl] at this
  rw [this]
  congr 2
  rw [put_zero, zipWith_append_short _ _ _ _ (by simp [keystream, prga_length])]
  exact zipWith_xor_involutive _ _ (by simp [keystream, prga_length])

/-- **C07** The encryption of a prefix is the prefix of the encryption. -/
theorem rc4_prefix (p q key : List Byte) (hk : 0 < key.length) :
    List.zipWith (· ^^^ ·) p (keystream key hk p.length) =
      (List.zipWith (· ^^^ ·) (p ++ q) (keystream key hk (p ++ q).length)).take p.length := by
  rw [List.take_zipWith, List.take_left, List.length_append]
  unfold keystream
  rw [prga_take]

/-- With an empty key `rc4` reads outside the key. -/
theorem rc4_empty_key (dst src : List Byte) (n : Nat) : rc4 dst src n [] = .error .oobRead := by
  unfold rc4 initBox
  rw [schedule_nokey _ _ _ _ (by simp)]
  rfl

end Ulz.Props

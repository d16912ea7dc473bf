import Verif.Proofs.Saber
/-! # C169, C170, C171: keys that rc4 cannot tell apart, CipherSaber and the test program of rc4 -/
namespace Ulz.Props
open Rc4 Saber Saber.Spec

/-- **C169** Only the first 256 bytes of the endlessly repeated key matter: two keys that agree there give the same result for every
    source, length and destination. -/
theorem rc4_same_keys (k1 k2 dst src : List Byte) (len : Nat) (h1 : 0 < k1.length) (h2 : 0 < k2.length)
    (h : ∀ i < 256, k1[i % k1.length]? = k2[i % k2.length]?) : rc4 dst src len k1 = rc4 dst src len k2 := by
  rw [← rc4_n_one_eq, ← rc4_n_one_eq]
  unfold rc4_n
  rw [rounds_same k1 k2 h1 h2 h]

-- Three different keys of the same cipher.
example : rc4 [1, 1, 1] [5, 6, 7] 3 (bytes! "ab") = rc4 [1, 1, 1] [5, 6, 7] 3 (bytes! "abab") := by
  refine rc4_same_keys _ _ _ _ _ (by decide) (by decide) ?_
  decide +kernel

/-- **C169** What follows the first 256 bytes of a key is ignored. -/
theorem rc4_long_key (key more dst src : List Byte) (len : Nat) (h : key.length = 256) :
    rc4 dst src len (key ++ more) = rc4 dst src len key := by
  refine rc4_same_keys _ _ _ _ _ (by simp; omega) (by omega) ?_
  intro i hi
  rw [Nat.mod_eq_of_lt (by simp; omega), Nat.mod_eq_of_lt (by omega), List.getElem?_append_left (by omega)]

example : rc4 [1] [5] 1 (List.replicate 256 7 ++ bytes! "secret") = rc4 [1] [5] 1 (List.replicate 256 7) :=
  rc4_long_key _ _ _ _ _ (by decide +kernel)

/-- **C169** A key and its repetition are the same key. -/
theorem rc4_repeated_key (key dst src : List Byte) (len : Nat) (h : 0 < key.length) :
    rc4 dst src len (key ++ key) = rc4 dst src len key := by
  refine rc4_same_keys _ _ _ _ _ (by simp; omega) h ?_
  intro i hi
  have e : (key ++ key).length = key.length * 2 := by simp; omega
  rw [e]
  have h1 : i % (key.length * 2) % key.length = i % key.length := Nat.mod_mul_right_mod i key.length 2
  have h2 : i % (key.length * 2) < key.length * 2 := Nat.mod_lt _ (by omega)
  by_cases hl : i % (key.length * 2) < key.length
  · rw [List.getElem?_append_left hl, ← h1, Nat.mod_eq_of_lt hl]
  · rw [List.getElem?_append_right (by omega), ← h1]
    have h3 : i % (key.length * 2) = i % (key.length * 2) - key.length + key.length := by omega
    have h4 : i % (key.length * 2) % key.length = i % (key.length * 2) - key.length := by
      rw [h3, Nat.add_mod_right, Nat.mod_eq_of_lt (by omega)]; omega
    rw [h4]

/-- **C170** One round of `rc4_n` is `rc4`, for all arguments. -/
theorem rc4_n_one (dst src : List Byte) (len : Nat) (key : List Byte) :
    rc4_n dst src len key 1 = rc4 dst src len key := rc4_n_one_eq dst src len key

/-- **C170** A CipherSaber-2 message is decrypted to its text, whatever the ten random bytes, the key of at most 255 characters, the
    number of rounds and the text. -/
theorem ciphersaber_2_decrypts (out iv key kj plain : List Byte) (r : Nat) (junk : Nat → Byte) (hi : iv.length = 10) (h0 : 0 ∉ key)
    (hl : key.length < 256) (ho : plain.length ≤ out.length) :
    ciphersaber_2_dec out (message key iv hi r plain) (key ++ 0 :: kj) r junk = .ok (some (put out 0 plain)) := by
  unfold message
  rw [dec2_eq _ _ _ _ _ _ _ hi h0 hl]
  have e : (List.zipWith (· ^^^ ·) plain (stream (key ++ iv) (key_pos hi) r plain.length)).length = plain.length := by
    simp [stream_length]
  rw [rc4_n_put _ _ _ _ (key_pos hi) (by omega), e, zipWith_xor_involutive _ _ (by simp [stream_length])]
  rfl

/-- **C170** A CipherSaber-1 message is decrypted to its text. -/
theorem ciphersaber_1_decrypts (out iv key kj plain : List Byte) (junk : Nat → Byte) (hi : iv.length = 10) (h0 : 0 ∉ key)
    (hl : key.length < 256) (ho : plain.length ≤ out.length) :
    ciphersaber_1_dec out (message key iv hi 1 plain) (key ++ 0 :: kj) junk = .ok (some (put out 0 plain)) := by
  rw [dec1_eq]; exact ciphersaber_2_decrypts out iv key kj plain 1 junk hi h0 hl ho

-- The published messages (ciphersaber.gurus.org) are decrypted, and the hypotheses hold for a key of 255 characters.
example : ciphersaber_1_test (fun _ => 3) = .ok true ∧ ciphersaber_2_test (fun _ => 3) = .ok true := tests_pass _
example : ciphersaber_2_dec [1, 2, 3, 4] (message (List.replicate 255 65) (bytes! "0123456789") rfl 20 (bytes! "abc"))
    (List.replicate 255 65 ++ 0 :: [7]) 20 (fun _ => 0) = .ok (some (bytes! "abc" ++ [4])) :=
  ciphersaber_2_decrypts _ _ _ _ _ _ _ _ (fun h => absurd (List.eq_of_mem_replicate h) (by decide))
    (by rw [List.length_replicate]; decide) (by decide)

/-- **C170** The program aborts exactly for messages shorter than ten bytes and for keys of 256 characters or more. -/
theorem ciphersaber_aborts_iff (out cmsg key kj : List Byte) (r : Nat) (junk : Nat → Byte) (h0 : 0 ∉ key)
    (ho : cmsg.length - 10 ≤ out.length) :
    (ciphersaber_2_dec out cmsg (key ++ 0 :: kj) r junk = .ok none ↔ cmsg.length < 10 ∨ 256 ≤ key.length) ∧
    (ciphersaber_1_dec out cmsg (key ++ 0 :: kj) junk = .ok none ↔ cmsg.length < 10 ∨ 256 ≤ key.length) := by
  have key2 : ∀ r, ciphersaber_2_dec out cmsg (key ++ 0 :: kj) r junk = .ok none ↔ cmsg.length < 10 ∨ 256 ≤ key.length := by
    intro r
    constructor
    · intro h
      by_cases hc : cmsg.length < 10 ∨ 256 ≤ key.length
      · exact hc
      exfalso
      have hi : (cmsg.take 10).length = 10 := by simp; omega
      have e : cmsg = cmsg.take 10 ++ cmsg.drop 10 := (List.take_append_drop 10 cmsg).symm
      rw [e, dec2_eq _ _ _ _ _ _ _ hi h0 (by omega), rc4_n_put _ _ _ _ (key_pos hi) (by simp; omega)] at h
      simp at h
    · intro h
      unfold ciphersaber_2_dec
      rw [decKey_none cmsg key kj junk h0 h]; rfl
  exact ⟨key2 r, by rw [dec1_eq]; exact key2 1⟩

example : ciphersaber_2_dec [] (bytes! "123456789") (bytes! "key" ++ [0]) 20 (fun _ => 0) = .ok none :=
  (ciphersaber_aborts_iff [] (bytes! "123456789") (bytes! "key") [] 20 (fun _ => 0) (by decide) (by decide)).1.2 (by decide)

/-- **C170** (negative) With a key of `l > 246` characters only the first `256 - l` of the ten random bytes are used: messages whose
    random bytes differ elsewhere are encrypted with the same keystream. -/
theorem ciphersaber_iv_ignored (out iv1 iv2 body key kj : List Byte) (r : Nat) (junk : Nat → Byte) (h1 : iv1.length = 10)
    (h2 : iv2.length = 10) (h0 : 0 ∉ key) (hl : key.length < 256) (hl' : 246 < key.length)
    (hiv : iv1.take (256 - key.length) = iv2.take (256 - key.length)) :
    ciphersaber_2_dec out (iv1 ++ body) (key ++ 0 :: kj) r junk = ciphersaber_2_dec out (iv2 ++ body) (key ++ 0 :: kj) r junk ∧
    ciphersaber_1_dec out (iv1 ++ body) (key ++ 0 :: kj) junk = ciphersaber_1_dec out (iv2 ++ body) (key ++ 0 :: kj) junk := by
  have hs : ∀ i < 256, (key ++ iv1)[i % (key ++ iv1).length]? = (key ++ iv2)[i % (key ++ iv2).length]? := by
    intro i hi
    rw [Nat.mod_eq_of_lt (by simp; omega), Nat.mod_eq_of_lt (by simp; omega)]
    by_cases hk : i < key.length
    · rw [List.getElem?_append_left hk, List.getElem?_append_left hk]
    · rw [List.getElem?_append_right (by omega), List.getElem?_append_right (by omega)]
      have := congrArg (fun l => l[i - key.length]?) hiv
      simpa [List.getElem?_take, show i - key.length < 256 - key.length by omega] using this
  have e : ∀ r, ciphersaber_2_dec out (iv1 ++ body) (key ++ 0 :: kj) r junk =
      ciphersaber_2_dec out (iv2 ++ body) (key ++ 0 :: kj) r junk := by
    intro r
    rw [dec2_eq _ _ _ _ _ _ _ h1 h0 hl, dec2_eq _ _ _ _ _ _ _ h2 h0 hl]
    unfold rc4_n
    rw [rounds_same _ _ (key_pos h1) (key_pos h2) hs]
  exact ⟨e r, by rw [dec1_eq, dec1_eq]; exact e 1⟩

-- A key of 255 characters leaves one random byte.
example : ciphersaber_1_dec [0] ([5, 1, 2, 3, 4, 5, 6, 7, 8, 9] ++ [42]) (List.replicate 255 7 ++ [0]) (fun _ => 0) =
    ciphersaber_1_dec [0] ([5, 0, 0, 0, 0, 0, 0, 0, 0, 0] ++ [42]) (List.replicate 255 7 ++ [0]) (fun _ => 0) :=
  (ciphersaber_iv_ignored [0] _ _ [42] (List.replicate 255 7) [] 1 (fun _ => 0) (by decide) (by decide) (by decide +kernel) (by decide +kernel)
    (by decide +kernel) (by decide +kernel)).2

/-- **C170** (negative) Without rounds the key has no influence at all. -/
theorem rc4_n_zero (dst src : List Byte) (len : Nat) (k1 k2 : List Byte) :
    rc4_n dst src len k1 0 = rc4_n dst src len k2 0 := by
  unfold rc4_n; rw [rounds_zero, rounds_zero]

/-- **C171** The test program with an argument of fewer than 2048 characters prints the encrypted argument, and its assertions hold
    whatever its automatic arrays contain at first. -/
theorem rc4_test_prints (s aj : List Byte) (junk : Nat → Byte) (h0 : 0 ∉ s) (hl : s.length < 2048) :
    mainArg (s ++ 0 :: aj) junk =
      .ok (List.zipWith (· ^^^ ·) s (Rc4.Spec.keystream (bytes! "just for test") (by decide) s.length), true) :=
  mainArg_short s aj junk h0 hl

example : ∃ x, mainArg (bytes! "hello" ++ 0 :: [9]) (fun _ => 0) = .ok (x, true) :=
  ⟨_, rc4_test_prints (bytes! "hello") [9] (fun _ => 0) (by decide) (by decide)⟩

/-- **C171** (negative) With a longer argument the test program writes outside its array. -/
theorem rc4_test_overflow (s aj : List Byte) (junk : Nat → Byte) (h0 : 0 ∉ s) (hl : 2048 ≤ s.length) :
    mainArg (s ++ 0 :: aj) junk = .error .oobWrite := mainArg_long s aj junk h0 hl

example : mainArg (List.replicate 2048 65 ++ 0 :: []) (fun _ => 0) = .error .oobWrite :=
  rc4_test_overflow _ [] _ (fun h => absurd (List.eq_of_mem_replicate h) (by decide)) (by rw [List.length_replicate]; decide)

end Ulz.Props

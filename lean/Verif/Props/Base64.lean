import Verif.Proofs.Base64
/-! # C01-C04: base64 -/
namespace Ulz.Props
open Base64 Base64.Spec

/-- include/strlib.h:83-91, the macros the documentation uses. -/
def BASE64ENC_BYTES (n : Nat) := (n + 2) / 3 * 4
def BASE64ENC_BUFSIZE (n : Nat) := 1 + BASE64ENC_BYTES n
def BASE64DEC_BYTES (n : Nat) := n / 4 * 3
def BASE64DEC_BUFSIZE (n : Nat) := 1 + BASE64DEC_BYTES n

/-- **C02** `base64enc` stores exactly the RFC 4648 text and a terminator, and touches nothing else. -/
theorem base64enc_correct (dst src : List Byte) (h : BASE64ENC_BUFSIZE src.length ≤ dst.length) :
    base64enc dst src = .ok (put dst 0 (encode src ++ [0])) ∧
    (encode src).length = BASE64ENC_BYTES src.length := by
  unfold BASE64ENC_BUFSIZE BASE64ENC_BYTES at *
  refine ⟨?_, by rw [encode_length]; omega⟩
  have := encLoop_put dst src [] 0 rfl (by rw [encode_length]; omega)
  simpa [base64enc] using this

example : base64enc [9, 9, 9, 9, 9, 9] (bytes! "Ma") = .ok (bytes! "TWE=" ++ [0, 9]) := by decide

/-- Buffers one byte too small are overrun: the documented size is the exact requirement. -/
theorem base64enc_needs_bufsize (dst src : List Byte) (h : dst.length < BASE64ENC_BUFSIZE src.length) :
    base64enc dst src = .error .oobWrite := by
  unfold BASE64ENC_BUFSIZE BASE64ENC_BYTES at h
  exact encLoop_short src dst 0 (by omega) (by rw [encode_length]; omega)

example : base64enc [9, 9, 9, 9] (bytes! "Ma") = .error .oobWrite := by decide

/-- **C01** Decoding what was encoded gives back the bytes and their number. Also states safety:
    neither run has undefined behaviour. (`src` is limited to below 2^31/4*3 bytes because the decoder
    counts characters in an `int`.) -/
theorem base64_roundtrip (src ebuf dbuf : List Byte)
    (he : BASE64ENC_BUFSIZE src.length ≤ ebuf.length)
    (hd : BASE64DEC_BUFSIZE (BASE64ENC_BYTES src.length) ≤ dbuf.length)
    (hsize : BASE64ENC_BYTES src.length < 2^31) :
    ∃ e d, base64enc ebuf src = .ok e ∧ e.length = ebuf.length ∧
      base64dec dbuf e dbuf.length = .ok (d, src.length) ∧ d.length = dbuf.length ∧
      d.take src.length = src := by
  obtain ⟨v, pad, fill, ⟨hv, hp, htext, hm⟩, h1, h2, h3⟩ := encode_isText src
  have hlen := encode_length src
  unfold BASE64ENC_BUFSIZE BASE64ENC_BYTES at *
  unfold BASE64DEC_BUFSIZE BASE64DEC_BYTES at *
  refine ⟨_, put dbuf 0 (bytesOf (v ++ List.replicate pad 0) ++ [0]),
    (base64enc_correct ebuf src (by unfold BASE64ENC_BUFSIZE BASE64ENC_BYTES; omega)).1,
    put_length (by simp; omega), ?_, ?_, ?_⟩
  · unfold base64dec
    rw [if_pos (by omega), put_zero, List.append_assoc, List.cons_append, List.nil_append, htext]
    have := decLoop_complete dbuf (List.drop ((encode src ++ [0]).length) ebuf) v pad
      { dst := dbuf, l := dbuf.length } [] hv hp (by omega) rfl rfl rfl (by simp only []; omega) (by simp) rfl
      (by simp) (by simp only []; omega)
    rw [htext] at this
    rw [this]
    simp only [List.nil_append]
    congr 2
    omega
  · apply put_length
    rw [h3]
    have h4 := congrArg List.length h3
    rw [bytesOf_length] at h4
    simp at h4 ⊢; omega
  · rw [put_take _ (by rw [h3]; simp), h3]
    simp

example : ∃ e d, base64enc (List.replicate 9 7) (bytes! "Man!") = .ok e ∧
    base64dec (List.replicate 7 7) e 7 = .ok (d, 4) ∧ d.take 4 = bytes! "Man!" := by
  exact ⟨bytes! "TWFuIQ==" ++ [0], bytes! "Man!" ++ [0, 0, 0], by decide, by decide, by decide⟩

/-- **C01**, the empty string: nothing to decode, the decoder reports 0. -/
theorem base64_roundtrip_empty (ebuf dbuf : List Byte) (he : 1 ≤ ebuf.length) (hd : 1 ≤ dbuf.length) :
    ∃ e d, base64enc ebuf [] = .ok e ∧ base64dec dbuf e dbuf.length = .ok (d, 0) ∧ d = put dbuf 0 [0] := by
  match ebuf, dbuf, he, hd with
  | a :: e, b :: d, _, _ =>
    refine ⟨0 :: e, 0 :: d, by simp [base64enc, encLoop, wr], ?_, by simp [put]⟩
    simp only [base64dec, List.length_cons, ne_eq, Nat.add_one_ne_zero, not_false_eq_true, if_true, decLoop]
    rw [if_neg (by decide), if_neg (by simp)]
    simp [wr]

/-- **C03** The decoder is safe on every text and every destination size, and reports success exactly
    for non-empty padded base64 text whose decoding plus terminator fits. -/
theorem base64dec_safe_and_exact (s junk dst : List Byte) (h0 : 0 ∉ s) (hs : s.length < 2^31) :
    ∃ d n, base64dec dst (s ++ 0 :: junk) dst.length = .ok (d, n) ∧ d.length = dst.length ∧
      (n ≠ 0 ↔ s ≠ [] ∧ (∃ v pad, IsText s v pad) ∧ BASE64DEC_BYTES s.length < dst.length) ∧
      (∀ v pad, IsText s v pad → n ≠ 0 →
        n = BASE64DEC_BYTES s.length - pad ∧
        d = put dst 0 (bytesOf (v ++ List.replicate pad 0) ++ [0])) := by
  unfold BASE64DEC_BYTES
  have hcomp : ∀ v pad, IsText s v pad → BASE64DEC_BYTES s.length < dst.length →
      base64dec dst (s ++ 0 :: junk) dst.length =
        .ok (put dst 0 (bytesOf (v ++ List.replicate pad 0) ++ [0]), BASE64DEC_BYTES s.length - pad) := by
    intro v pad ⟨hv, hp, htext, hm⟩ hfit
    unfold BASE64DEC_BYTES at *
    have hl : s.length = v.length + pad := by rw [htext]; simp
    have := decLoop_complete dst junk v pad
      { dst := dst, l := dst.length } [] hv hp (by omega) rfl rfl rfl (by simp only []; omega) (by simp) rfl
      (by simp) (by simp only []; omega)
    unfold base64dec
    rw [if_pos (by omega)]
    rw [← htext] at this
    rw [this]
    simp only [List.nil_append]
    congr 2
    omega
  by_cases hd0 : dst.length = 0
  · refine ⟨dst, 0, ?_, rfl, ?_, ?_⟩
    · rw [hd0]; simp [base64dec]
    · simp [hd0]
    · intro v pad _ h; exact absurd rfl h
  · obtain ⟨d, n, hr, hl, hacc⟩ := decLoop_sound junk s { dst := dst, l := dst.length } h0
      (by simp) (by simp only []; omega) (by simp)
    have hr' : base64dec dst (s ++ 0 :: junk) dst.length = .ok (d, n) := by
      unfold base64dec; rw [if_pos hd0]; exact hr
    refine ⟨d, n, hr', hl, ⟨fun hn => ?_, ?_⟩, ?_⟩
    · obtain ⟨v, pad, hv, hsv, hpad, _, hmod, hfit⟩ := hacc hn
      simp only [Nat.zero_add, Nat.zero_div, Nat.mul_zero, Nat.sub_zero] at *
      have ht : IsText s v pad := ⟨hv, hpad, hsv, hmod⟩
      refine ⟨?_, ⟨v, pad, ht⟩, by omega⟩
      intro hsn
      have := hcomp v pad ht (by unfold BASE64DEC_BYTES; omega)
      rw [hr'] at this
      injection this with this
      injection this with _ this
      apply hn; rw [this, hsn]; simp [BASE64DEC_BYTES]
    · rintro ⟨hsn, ⟨v, pad, ht⟩, hfit⟩
      have := hcomp v pad ht hfit
      rw [hr'] at this
      injection this with this
      injection this with _ this
      rw [this]
      obtain ⟨_, hp, _, hm⟩ := ht
      have : 0 < s.length := List.length_pos_iff.2 hsn
      unfold BASE64DEC_BYTES; omega
    · intro v pad ht hn
      obtain ⟨v', pad', hv, hsv, hpad, _, hmod, hfit⟩ := hacc hn
      simp only [Nat.zero_add, Nat.zero_div, Nat.mul_zero, Nat.sub_zero] at *
      have := hcomp v pad ht (by unfold BASE64DEC_BYTES; omega)
      rw [hr'] at this
      injection this with this
      injection this with h1 h2
      exact ⟨h2, h1⟩

example : base64dec [7, 7, 7, 7] (bytes! "TWE=" ++ [0]) 4 = .ok (bytes! "Ma" ++ [0, 0], 2) := by decide
example : base64dec [7, 7, 7] (bytes! "TWE=" ++ [0]) 3 = .ok (bytes! "Ma" ++ [0], 0) := by decide
example : (base64dec [7, 7, 7, 7] (bytes! "T==" ++ [0]) 4).map (·.2) = .ok 0 := by decide
example : IsText (bytes! "TWE=") [19, 22, 4] 1 := by unfold IsText; decide

/-- **C04** `base64enc_str` never leaves its buffer, returns 1 exactly when the result fits, and then
    produces what `base64enc` produces. -/
theorem base64enc_str_correct (s junk dst : List Byte) (h0 : 0 ∉ s) :
    ∃ out r, base64enc_str dst (s ++ 0 :: junk) dst.length = .ok (out, r) ∧ out.length = dst.length ∧
      (r = 1 ↔ BASE64ENC_BUFSIZE s.length ≤ dst.length) ∧ (r = 0 ∨ r = 1) ∧
      (r = 1 → base64enc dst s = .ok out) := by
  obtain ⟨out, h1, h2, h3⟩ := encStrLoop_put dst junk s [] 0 dst.length h0 rfl (by simp)
  simp only [put_nil, List.nil_append] at *
  have hl := encode_length s
  unfold BASE64ENC_BUFSIZE BASE64ENC_BYTES
  by_cases h : (encode s).length < dst.length
  · rw [if_pos h] at h1
    refine ⟨out, 1, h1, h2, ⟨fun _ => by omega, fun _ => rfl⟩, .inr rfl, fun _ => ?_⟩
    rw [h3 h]
    exact (base64enc_correct dst s (by unfold BASE64ENC_BUFSIZE BASE64ENC_BYTES; omega)).1
  · rw [if_neg h] at h1
    refine ⟨out, 0, h1, h2, ⟨by omega, by omega⟩, .inl rfl, by omega⟩

example : base64enc_str (List.replicate 5 9) (bytes! "Ma" ++ [0]) 5 = .ok (bytes! "TWE=" ++ [0], 1) := by
  simp [base64enc_str, encStrLoop]; decide
example : (base64enc_str (List.replicate 4 9) (bytes! "Ma" ++ [0]) 4).map (·.2) = .ok 0 := by
  simp [base64enc_str, encStrLoop]; decide

end Ulz.Props

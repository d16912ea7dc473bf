import Verif.Proofs.Base64small
/-! # C239: base64 with a buffer that is too small or a text that is wrong -/
namespace Ulz.Props
open Base64 Base64.Spec

/-- **C239** Whether it fits or not, `base64enc_str` leaves in the buffer the terminated text of as many whole groups of
    three bytes as have room, and touches nothing else; it reports success exactly if that is the whole text. -/
theorem base64enc_str_prefix (dst s junk : List Byte) (h0 : 0 ∉ s) (hl : 0 < dst.length) :
    ∃ k r, k = 3 * ((dst.length - 1) / 4) ∧
      base64enc_str dst (s ++ 0 :: junk) dst.length = .ok (put dst 0 (encode (s.take k) ++ [0]), r) ∧
      (r = 1 ∨ r = 0) ∧ (r = 1 ↔ s.length ≤ k) := by
  refine ⟨_, _, rfl, enc_once h0 hl, ?_, ?_⟩
  · split <;> simp
  · rw [encode_length]
    split <;> simp <;> omega

example : base64enc_str (List.replicate 7 9) (bytes! "abcdef" ++ [0]) 7 = .ok (bytes! "YWJj" ++ [0, 9, 9], 0) := by
  obtain ⟨k, r, hk, h1, h2, h3⟩ := base64enc_str_prefix (List.replicate 7 9) (bytes! "abcdef") [] (by decide) (by decide)
  have hk3 : k = 3 := by rw [hk]; decide
  subst hk3
  have hr : r = 0 := by
    rcases h2 with h2 | h2
    · exact absurd (h3.1 h2) (by decide)
    · exact h2
  rw [hr] at h1
  exact h1

/-- **C239** So a text of any length can be written through a buffer of any size from five bytes on: going on, after each
    failure, behind the bytes that had room gives the text of the whole. -/
theorem base64enc_str_through (buf s junk : List Byte) (h0 : 0 ∉ s) (hl : 5 ≤ buf.length) (fuel : Nat) (hf : s.length < fuel) :
    encThrough fuel buf (s ++ 0 :: junk) = .ok (encode s) :=
  encThrough_ok fuel buf s junk h0 hl hf

example : encThrough 9 (List.replicate 5 9) (bytes! "abcdefgh" ++ [0]) = .ok (bytes! "YWJjZGVmZ2g=") :=
  base64enc_str_through (List.replicate 5 9) (bytes! "abcdefgh") [] (by decide) (by decide) 9 (by decide)

/-- **C239** With a smaller buffer the same loop never ends, unless there is nothing to encode. -/
theorem base64enc_str_through_stuck (buf s junk : List Byte) (h0 : 0 ∉ s) (hs : s ≠ []) (hl : 1 ≤ buf.length) (hl5 : buf.length < 5)
    (fuel : Nat) : encThrough fuel buf (s ++ 0 :: junk) = .error .hang :=
  encThrough_hang fuel buf s junk h0 hs hl hl5

example (fuel : Nat) : encThrough fuel (List.replicate 4 9) (bytes! "a" ++ [0]) = .error .hang :=
  base64enc_str_through_stuck (List.replicate 4 9) (bytes! "a") [] (by decide) (by decide) (by decide) (by decide) fuel

/-- Every text has an accepted start. -/
theorem base64_start_exists (s : List Byte) : ∃ v j r, Start s v j r := start_exists s

example : Start (bytes! "YWJj*") [24, 22, 9, 35] 0 (bytes! "*") := by
  refine ⟨by decide, by decide, by decide, ?_⟩
  intro c hc
  have : c = 42#8 := by simpa using hc.symm
  subst this
  exact ⟨fun _ => by decide, fun _ => by decide⟩

/-- **C239** When `base64dec` fails, the buffer holds the bytes of the whole groups of four characters before the error, as far
    as they have room, and is otherwise unchanged; in particular no terminator is stored. -/
theorem base64dec_failed (dst s junk d : List Byte) (v : List Nat) (j : Nat) (r : List Byte) (h0 : 0 ∉ s) (hs : s ≠ [])
    (hlen : s.length < 2 ^ 31) (hst : Start s v j r) (h : base64dec dst (s ++ 0 :: junk) dst.length = .ok (d, 0)) :
    d = put dst 0 (bytesOf ((v ++ List.replicate j 0).take (4 * min ((v.length + j) / 4) (dst.length / 3)))) := by
  unfold base64dec at h
  by_cases hd : dst.length ≠ 0
  · rw [if_pos hd] at h
    obtain ⟨d', n, e1, e2⟩ := decLoop_out dst junk s { dst := dst, l := dst.length } [] [] h0 (by simp) rfl (by simp)
      (by simpa using hlen) (by simp) rfl (by simp) rfl (by simp)
    rw [e1] at h
    simp only [Except.ok.injEq, Prod.mk.injEq] at h
    rcases e2 with e2 | e2 | ⟨_, e2⟩
    · rw [← h.1, e2]
      simp only [List.nil_append]
      rw [vals_start hst]
      unfold written
      simp
    · exact absurd h.2 e2
    · exact absurd e2 hs
  · rw [if_neg hd] at h
    have hd0 : dst.length = 0 := by omega
    simp only [pure_eq_ok, Except.ok.injEq, Prod.mk.injEq] at h
    rw [← h.1, hd0]
    simp [bytesOf]

example (d : List Byte) (h : base64dec (List.replicate 8 9) (bytes! "YWJj*" ++ [0]) 8 = .ok (d, 0)) :
    d = bytes! "abc" ++ [9, 9, 9, 9, 9] := by
  have := base64dec_failed (List.replicate 8 9) (bytes! "YWJj*") [] d [24, 22, 9, 35] 0 (bytes! "*") (by decide) (by decide)
    (by decide) (by
      refine ⟨by decide, by decide, by decide, ?_⟩
      intro c hc
      have : c = 42#8 := by simpa using hc.symm
      subst this
      exact ⟨fun _ => by decide, fun _ => by decide⟩) h
  rw [this]
  decide

/-- and the call of the example does fail. -/
example : base64dec (List.replicate 8 9) (bytes! "YWJj*" ++ [0]) 8 = .ok (bytes! "abc" ++ [9, 9, 9, 9, 9], 0) := by decide

end Ulz.Props

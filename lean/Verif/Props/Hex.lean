import Verif.Proofs.Hex
/-! # C05, C06: hexadecimal text -/
namespace Ulz.Props
open Hex Hex.Spec

/-- **C05** (first half) `raw2hex` stores exactly the 2n lower-case digits and a terminator. -/
theorem raw2hex_correct (dst src : List Byte) (h : 2 * src.length + 1 ≤ dst.length) :
    raw2hex dst src = .ok (put dst 0 (text src ++ [0])) ∧ (text src).length = 2 * src.length := by
  refine ⟨?_, text_length src⟩
  have := raw2hexLoop_put dst src [] 0 rfl (by omega)
  simpa [raw2hex] using this

example : raw2hex [1, 1, 1, 1, 1, 9] [0xde, 0x0a] = .ok (bytes! "de0a" ++ [0, 9]) := by decide

/-- **C05** With less room `raw2hex` writes outside the destination. -/
theorem raw2hex_needs_room (dst src : List Byte) (h : dst.length < 2 * src.length + 1) :
    raw2hex dst src = .error .oobWrite := raw2hexLoop_short src dst 0 (by omega)

example : raw2hex [1, 1, 1, 1] [0xde, 0x0a] = .error .oobWrite := raw2hex_needs_room _ _ (by decide)

/-- **C05** `hex2raw` undoes `raw2hex`. -/
theorem hex_roundtrip (src hbuf out : List Byte) (hh : 2 * src.length + 1 ≤ hbuf.length)
    (ho : src.length ≤ out.length) :
    ∃ e, raw2hex hbuf src = .ok e ∧ hex2raw e out = .ok (put out 0 src, src.length) := by
  refine ⟨_, (raw2hex_correct hbuf src hh).1, ?_⟩
  have hl := text_length src
  rw [put_zero, List.append_assoc, List.cons_append, List.nil_append]
  unfold hex2raw
  rw [strlen_cstr _ _ (text_ne_zero src)]
  simp only [ok_bind]
  rw [if_neg (by omega)]
  have := hex2rawLoop_put out (List.drop (text src ++ [0]).length hbuf) (text src) [] 0
    (text_ne_zero src) (by omega) rfl (by omega)
  rw [put_nil, pairs_text] at this
  rw [this]
  simp [hl]

example : ∃ e, raw2hex (List.replicate 5 1) [0xde, 0x0a] = .ok e ∧
    hex2raw e [7, 7, 7] = .ok ([0xde, 0x0a, 7], 2) := ⟨bytes! "de0a" ++ [0], by decide, by decide⟩

/-- **C06** (hex texts) `hex2raw` stores the (L+1)/2 bytes of the big-endian number the text denotes. -/
theorem hex2raw_value (s junk out : List Byte) (hx : ∀ c ∈ s, IsHex c)
    (ho : (s.length + 1) / 2 ≤ out.length) :
    ∃ bs, hex2raw (s ++ 0 :: junk) out = .ok (put out 0 bs, (s.length + 1) / 2) ∧
      bs.length = (s.length + 1) / 2 ∧ number s = some (beNumber bs) := by
  have h0 : 0 ∉ s := fun h => absurd (hx 0 h) (by decide)
  unfold hex2raw
  rw [strlen_cstr _ _ h0]
  simp only [ok_bind]
  by_cases hodd : s.length % 2 = 1
  · rw [if_pos hodd]
    match s, hx, h0, ho, hodd with
    | a :: s, hx, h0, ho, hodd =>
      simp only [List.length_cons] at *
      simp only [List.cons_append]
      obtain ⟨va, hva⟩ := Option.isSome_iff_exists.1 (hx a (by simp))
      have hlt := value_lt hva
      have hw : wr out 0 (BitVec.ofNat 8 va) = .ok (put out 0 [BitVec.ofNat 8 va]) := by
        have := wr_put0 (b := out) (xs := []) (j := 0) (v := BitVec.ofNat 8 va) rfl (by omega)
        simpa using this
      simp only [List.mem_cons, not_or] at h0
      have hb : hvalByte a = BitVec.ofNat 8 va := by simp [hvalByte, hval_eq_value, hva]
      simp only [hb, hw, ok_bind]
      rw [hex2rawLoop_put out junk s [BitVec.ofNat 8 va] 1 h0.2 (by omega) rfl (by omega)]
      cases hp : pairs s with
      | none =>
        obtain ⟨i, hi, _, h3⟩ := (pairs_none (s := s) (by omega)).1 hp
        exact absurd (hx s[i] (by simp)) h3
      | some t =>
        have hl := pairs_length (s := s) (by omega) hp
        refine ⟨BitVec.ofNat 8 va :: t, by simp, by simp [hl]; omega, ?_⟩
        unfold number beNumber
        simp only [List.foldl_cons, hva]
        have := pairs_number (s := s) (bs := t) va (by omega) (fun c hc => hx c (by simp [hc])) hp
        simp only [Option.bind_eq_bind, Option.bind_some, Option.pure_def, Nat.zero_mul, Nat.zero_add] at *
        rw [this]
        simp only [BitVec.toNat_ofNat]
        congr 2; omega
  · rw [if_neg hodd]
    have := hex2rawLoop_put out junk s [] 0 h0 (by omega) rfl (by omega)
    rw [put_nil] at this
    rw [this]
    cases hp : pairs s with
    | none =>
      obtain ⟨i, hi, _, h3⟩ := (pairs_none (s := s) (by omega)).1 hp
      exact absurd (hx s[i] (by simp)) h3
    | some t =>
      have hl := pairs_length (s := s) (by omega) hp
      refine ⟨t, by simp; omega, by omega, ?_⟩
      exact pairs_number 0 (by omega) hx hp

example : hex2raw (bytes! "aAb" ++ [0]) [7, 7] = .ok ([0x0a, 0xab], 2) ∧
    number (bytes! "aAb") = some (beNumber [0x0a, 0xab]) := by decide

/-- **C06** (arbitrary texts) `hex2raw` never leaves its buffers. The only undefined behaviour is the
    left shift of -1, and it happens exactly when some high digit is not a hex digit. Otherwise the bytes stored are
    those of the pairs of digits, 255 for a pair whose low digit is not a hex digit (for an odd number of characters
    the first one counts as a low digit). -/
theorem hex2raw_safe (s junk out : List Byte) (h0 : 0 ∉ s) (ho : (s.length + 1) / 2 ≤ out.length) :
    (∃ bs, hex2raw (s ++ 0 :: junk) out = .ok (put out 0 bs, (s.length + 1) / 2) ∧
        bs.length = (s.length + 1) / 2 ∧
        (∀ i, (h : i < s.length) → i % 2 = s.length % 2 → IsHex s[i]) ∧
        (∀ i c d, i % 2 = s.length % 2 → s[i]? = some c → s[i + 1]? = some d → bs[(i + 1) / 2]? = some (pairByte c d)) ∧
        (s.length % 2 = 1 → ∀ c, s[0]? = some c → bs[0]? = some (pairByte (ch '0') c))) ∨
    (hex2raw (s ++ 0 :: junk) out = .error .overflow ∧
        ∃ i, ∃ h : i < s.length, i % 2 = s.length % 2 ∧ ¬ IsHex s[i]) := by
  unfold hex2raw
  rw [strlen_cstr _ _ h0]
  simp only [ok_bind]
  by_cases hodd : s.length % 2 = 1
  · rw [if_pos hodd]
    match s, h0, ho, hodd with
    | a :: s, h0, ho, hodd =>
      simp only [List.length_cons] at *
      simp only [List.cons_append]
      simp only [List.mem_cons, not_or] at h0
      generalize hwa : hvalByte a = w
      have hw : wr out 0 w = .ok (put out 0 [w]) := by
        have := wr_put0 (b := out) (xs := []) (j := 0) (v := w) rfl (by omega)
        simpa using this
      simp only [hw, ok_bind]
      rw [hex2rawLoop_put out junk s [w] 1 h0.2 (by omega) rfl (by omega)]
      have hn := pairs_none (s := s) (by omega)
      cases hp : pairs s with
      | none =>
        obtain ⟨i, hi, h2, h3⟩ := hn.1 hp
        refine .inr ⟨by simp, i + 1, by omega, by omega, by simpa using h3⟩
      | some t =>
        have hl := pairs_length (s := s) (by omega) hp
        refine .inl ⟨w :: t, by simp, by simp [hl]; omega, ?_, ?_, ?_⟩
        rotate_left
        · intro i c d hi hc hd
          match i, hi with
          | 0, hi => omega
          | i + 1, hi =>
            rw [show (i + 1 + 1) / 2 = i / 2 + 1 by omega]
            simpa using pairs_get hp (i := i) (c := c) (d := d) (by omega) (by simpa using hc) (by simpa using hd)
        · intro _ c hc
          simp only [List.getElem?_cons_zero, Option.some.injEq] at hc ⊢
          rw [← hwa, ← hc, hvalByte, hval_eq_value]
          unfold pairByte
          rw [show value (ch '0') = some 0 by decide]
          cases value a <;> simp
        intro i hi h2
        rcases Decidable.em (IsHex (a :: s)[i]) with hh | hh
        · exact hh
        · match i, hi, h2, hh with
          | 0, _, h2, _ => omega
          | i + 1, hi, h2, hh =>
            have := hn.2 ⟨i, by omega, by omega, by simpa using hh⟩
            rw [hp] at this; cases this
  · rw [if_neg hodd]
    have := hex2rawLoop_put out junk s [] 0 h0 (by omega) rfl (by omega)
    rw [put_nil] at this
    rw [this]
    have hn := pairs_none (s := s) (by omega)
    cases hp : pairs s with
    | none =>
      obtain ⟨i, hi, h2, h3⟩ := hn.1 hp
      exact .inr ⟨by simp, i, hi, by omega, h3⟩
    | some t =>
      have hl := pairs_length (s := s) (by omega) hp
      refine .inl ⟨t, by simp; omega, by omega, ?_, ?_, fun h => absurd h hodd⟩
      rotate_left
      · intro i c d hi hc hd
        rw [show (i + 1) / 2 = i / 2 by omega]
        exact pairs_get hp (by omega) hc hd
      intro i hi h2
      rcases Decidable.em (IsHex s[i]) with hh | hh
      · exact hh
      · have := hn.2 ⟨i, hi, by omega, hh⟩
        rw [hp] at this; cases this

/-- **C06** A destination with less room than (L+1)/2 bytes is overrun. -/
theorem hex2raw_needs_room (s junk out : List Byte) (hx : ∀ c ∈ s, IsHex c) (ho : out.length < (s.length + 1) / 2) :
    hex2raw (s ++ 0 :: junk) out = .error .oobWrite := by
  have h0 : 0 ∉ s := fun h => absurd (hx 0 h) (by decide)
  unfold hex2raw
  rw [strlen_cstr _ _ h0]
  simp only [ok_bind]
  by_cases hodd : s.length % 2 = 1
  · rw [if_pos hodd]
    match s, hx, h0, ho, hodd with
    | a :: s, hx, h0, ho, hodd =>
      simp only [List.length_cons, List.cons_append] at *
      unfold wr
      by_cases hz : 0 < out.length
      · rw [if_pos hz, ok_bind, loop_short junk s _ _ (fun c hc => hx c (by simp [hc])) (by omega) (by simp; omega) (by simp; omega)]
        rfl
      · rw [if_neg hz]; rfl
  · rw [if_neg hodd, loop_short junk s _ _ hx (by omega) (by omega) (by omega)]
    rfl

example : hex2raw (bytes! "abc" ++ [0]) [7] = .error .oobWrite := by decide
example : hex2raw (bytes! "a!g1" ++ [0]) [7, 7] = .error .overflow := by decide
example : hex2raw (bytes! "g1" ++ [0]) [7] = .error .overflow ∧
    hex2raw (bytes! "1g" ++ [0]) [7] = .ok ([0xff], 1) := by decide

end Ulz.Props

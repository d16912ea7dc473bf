import Verif.Proofs.Base64text
import Mathlib.Data.List.Nodup
/-! # C201: the texts of the same data -/
namespace Ulz.Props
open Base64 Base64.Spec

/-- **C201** Exactly these texts are decoded to the data `x`: the text of the encoder, with any number below `4 ^ pad` added to its
    last symbol, where `pad` is the number of `=` at its end. -/
theorem base64_texts_of (x s : List Byte) (hx : x ≠ []) (h0 : 0 ∉ s) (hs : s.length < 2 ^ 31) :
    Decodes s x ↔ ∃ p c k, encode x = p ++ sym c :: List.replicate (padOf x.length) (ch '=') ∧ c < 64 ∧ k < 4 ^ padOf x.length ∧
      s = p ++ sym (c + k) :: List.replicate (padOf x.length) (ch '=') := by
  rw [decodes_iff_text h0 hs hx, ch_eq]
  constructor
  · rintro ⟨hne, v, pad, ht, rfl⟩
    obtain ⟨p, c, hv, hc, he, -⟩ := encode_dataOf ht hne
    rw [← pad_of_data ht hne]
    have hpos : 0 < 4 ^ pad := Nat.pow_pos (by decide)
    have hle : c / 4 ^ pad * 4 ^ pad ≤ c := Nat.div_mul_le_self _ _
    refine ⟨p.map sym, c / 4 ^ pad * 4 ^ pad, c % 4 ^ pad, he, by omega, Nat.mod_lt _ hpos, ?_⟩
    rw [Nat.div_add_mod' c, ht.2.2.1, hv]
    simp
  · rintro ⟨p, c, k, he, hc, hk, rfl⟩
    obtain ⟨q, b, hq, hb, ht, hm, hd⟩ := encode_parts hx
    have h1 := ht.2.2.1
    rw [he, List.map_append, List.append_assoc, List.map_singleton, List.cons_append, List.nil_append] at h1
    have hlen := congrArg List.length h1
    simp only [List.length_append, List.length_cons, List.length_replicate, List.length_map] at hlen
    obtain ⟨hp1, hp2⟩ := List.append_inj h1 (by simp; omega)
    have hbc := sym_inj hc hb (List.cons.inj hp2).1
    subst hbc
    have hlt : c + k < 64 := by
      have h2 := padOf_le x.length
      generalize padOf x.length = n at hk hm h2
      match n, h2 with
      | 0, _ => simp at hk; omega
      | 1, _ => simp at hk hm; omega
      | 2, _ => simp at hk hm; omega
    have ht' : IsText (p ++ sym (c + k) :: List.replicate (padOf x.length) 61) (q ++ [c + k]) (padOf x.length) := by
      refine ⟨?_, ht.2.1, ?_, ?_⟩
      · intro y hy
        rcases List.mem_append.1 hy with h | h
        · exact hq y h
        · simp only [List.mem_singleton] at h; omega
      · rw [hp1]; simp
      · have := ht.2.2.2
        rw [he] at this
        simpa using this
    have hne : p ++ sym (c + k) :: List.replicate (padOf x.length) 61 ≠ [] := by simp
    refine ⟨hne, q ++ [c + k], padOf x.length, ht', ?_⟩
    obtain ⟨p', c', hv, hc', he', -⟩ := encode_dataOf ht' hne
    obtain ⟨hv1, hv2⟩ := List.append_inj' hv rfl
    have hv3 : c + k = c' := (List.cons.inj hv2).1
    subst hv1 hv3
    have hck : (c + k) / 4 ^ padOf x.length * 4 ^ padOf x.length = c := by
      have h5 := Nat.div_add_mod c (4 ^ padOf x.length)
      rw [hm, Nat.add_zero, Nat.mul_comm] at h5
      have : (c + k) / 4 ^ padOf x.length = c / 4 ^ padOf x.length := by
        conv_lhs => rw [← h5]
        rw [Nat.add_comm, Nat.add_mul_div_right _ _ (Nat.pow_pos (by decide)), Nat.div_eq_of_lt hk, Nat.zero_add]
      rw [this, h5]
    rw [hck, ← hp1, ← he] at he'
    have hxl : (encode x).length < 2 ^ 31 := by
      rw [he]; simpa using hs
    have hdn : dataOf (q ++ [c + k]) (padOf x.length) ≠ [] := by
      intro h
      rw [h] at he'
      exact encode_ne_nil hx he'.symm
    have h6 := decodes_encode hdn (by rw [he']; exact hxl)
    rw [he'] at h6
    exact decodes_det (decodes_encode hx hxl) h6

/-- Four texts of the two bytes `Ma`: the last symbol `E` can be `E`, `F`, `G` or `H`. -/
example : Decodes (bytes! "TWE=") (bytes! "Ma") ∧ Decodes (bytes! "TWH=") (bytes! "Ma") ∧ ¬ Decodes (bytes! "TWI=") (bytes! "Ma") := by
  refine ⟨?_, ?_, ?_⟩
  · rw [base64_texts_of _ _ (by decide) (by decide) (by decide)]
    exact ⟨bytes! "TW", 4, 0, by decide, by decide, by decide, by decide⟩
  · rw [base64_texts_of _ _ (by decide) (by decide) (by decide)]
    exact ⟨bytes! "TW", 4, 3, by decide, by decide, by decide, by decide⟩
  · intro h
    obtain ⟨d, h1, _, h2⟩ := h [] (List.replicate 4 0) (by decide)
    have h3 : base64dec (List.replicate 4 0) (bytes! "TWI=" ++ [0]) 4 = .ok ([0x4d, 0x62, 0, 0], 2) := by decide
    rw [show (List.replicate 4 (0 : Byte)).length = 4 from rfl, h3] at h1
    obtain ⟨rfl, _⟩ := Prod.mk.inj (Except.ok.inj h1)
    exact absurd h2 (by decide)

/-- **C201** Their number: one text for data of which the length is a multiple of three, four with one `=`, sixteen with two. -/
theorem base64_text_count (x : List Byte) (hx : x ≠ []) (hs : BASE64ENC_BYTES x.length < 2 ^ 31) :
    ∃ L : List (List Byte), L.Nodup ∧ L.length = (if x.length % 3 = 0 then 1 else if x.length % 3 = 2 then 4 else 16) ∧
      ∀ s, 0 ∉ s → s.length < 2 ^ 31 → (Decodes s x ↔ s ∈ L) := by
  obtain ⟨p, c, hp, hc, ht, hm, hd⟩ := encode_parts hx
  have hlt : ∀ k < 4 ^ padOf x.length, c + k < 64 := by
    intro k hk
    have h2 := padOf_le x.length
    generalize padOf x.length = n at hk hm h2
    match n, h2 with
    | 0, _ => simp at hk; omega
    | 1, _ => simp at hk hm; omega
    | 2, _ => simp at hk hm; omega
  have hex : encode x = p.map sym ++ sym c :: List.replicate (padOf x.length) (ch '=') := by
    rw [ht.2.2.1, ch_eq]; simp
  refine ⟨(List.range (4 ^ padOf x.length)).map fun k => p.map sym ++ sym (c + k) :: List.replicate (padOf x.length) (ch '='), ?_, ?_, ?_⟩
  · refine List.Nodup.map_on ?_ List.nodup_range
    intro a ha b hb h
    have ha' := hlt a (List.mem_range.1 ha)
    have hb' := hlt b (List.mem_range.1 hb)
    have := sym_inj ha' hb' (List.cons.inj (List.append_cancel_left h)).1
    omega
  · rw [List.length_map, List.length_range]
    have : x.length % 3 < 3 := Nat.mod_lt _ (by decide)
    unfold padOf
    generalize x.length % 3 = n at this
    match n, this with
    | 0, _ => rfl
    | 1, _ => rfl
    | 2, _ => rfl
  · intro s h0 hs'
    rw [base64_texts_of x s hx h0 hs']
    simp only [List.mem_map, List.mem_range]
    constructor
    · rintro ⟨p', c', k, he, hc', hk, rfl⟩
      rw [hex] at he
      have hlen := congrArg List.length he
      simp only [List.length_append, List.length_cons, List.length_replicate] at hlen
      obtain ⟨h1, h2⟩ := List.append_inj he (by omega)
      have := sym_inj hc hc' (List.cons.inj h2).1
      subst h1 this
      exact ⟨k, hk, rfl⟩
    · rintro ⟨k, hk, rfl⟩
      exact ⟨p.map sym, c, k, hex, hc, hk, rfl⟩

example : ∃ L : List (List Byte), L.length = 16 ∧ ∀ s, 0 ∉ s → s.length < 2 ^ 31 → (Decodes s [0xff] ↔ s ∈ L) := by
  obtain ⟨L, _, h, h'⟩ := base64_text_count [0xff] (by decide) (by decide)
  exact ⟨L, h, h'⟩

/-- **C201** (negative) The documented zero behind the decoded data: after a success the byte behind the `n` decoded bytes is zero
    exactly if the text is the one the encoder makes of these bytes. -/
theorem base64dec_terminated_iff (s junk dst d : List Byte) (n : Nat) (h0 : 0 ∉ s) (hs : s.length < 2 ^ 31)
    (h : base64dec dst (s ++ 0 :: junk) dst.length = .ok (d, n)) (hn : n ≠ 0) : d[n]? = some 0 ↔ s = encode (d.take n) := by
  obtain ⟨d', n', hr, hl, hacc, hv⟩ := base64dec_safe_and_exact s junk dst h0 hs
  rw [h] at hr
  obtain ⟨rfl, rfl⟩ := Prod.mk.inj (Except.ok.inj hr)
  obtain ⟨hne, ⟨v, pad, ht⟩, hfit⟩ := hacc.1 hn
  obtain ⟨h1, h2⟩ := hv v pad ht hn
  unfold BASE64DEC_BYTES at h1 hfit
  obtain ⟨p, c, hp, hc, he, hz⟩ := encode_dataOf ht hne
  have hsl : s.length = v.length + pad := by rw [ht.2.2.1]; simp
  have hbl : (bytesOf (v ++ List.replicate pad 0)).length = s.length / 4 * 3 := by
    rw [bytesOf_length]; simp only [List.length_append, List.length_replicate, ← hsl]; omega
  have hd : d.take n = dataOf v pad := by
    rw [h2, h1, put_zero, List.append_assoc, List.take_append_of_le_length (by omega), dataOf, ← hsl]
  have hdn : d[n]? = (bytesOf (v ++ List.replicate pad 0) ++ [0])[s.length / 4 * 3 - pad]? := by
    rw [h2, h1, put_zero, List.getElem?_append_left]
    simp only [List.length_append, List.length_singleton, hbl]; omega
  rw [hdn, hz, hd, he, ht.2.2.1, hp, List.map_append, List.append_assoc, List.map_singleton, List.cons_append, List.nil_append]
  have hle : c / 4 ^ pad * 4 ^ pad ≤ c := Nat.div_mul_le_self _ _
  have h5 := Nat.div_add_mod' c (4 ^ pad)
  constructor
  · intro h
    rw [h, Nat.add_zero] at h5
    rw [h5]
  · intro h
    have := sym_inj hc (by omega) (List.cons.inj (List.append_cancel_left h)).1
    omega

/-- `TWH=` is decoded to the two bytes `Ma`, followed by a byte that is not zero. -/
example : base64dec (List.replicate 4 0) (bytes! "TWH=" ++ [0]) 4 = .ok (bytes! "Ma" ++ [0xc0, 0], 2) := by decide

/-- **C201** Encoding in pieces: the second piece encoded to where the text of the first ends gives the text of the whole exactly
    if the length of the first is a multiple of three or the second is empty. -/
theorem base64enc_pieces_iff (a b dst d1 d2 : List Byte) (h : BASE64ENC_BYTES a.length + BASE64ENC_BUFSIZE b.length ≤ dst.length)
    (h1 : base64enc dst a = .ok d1) (h2 : base64enc (d1.drop (BASE64ENC_BYTES a.length)) b = .ok d2) :
    base64enc dst (a ++ b) = .ok (d1.take (BASE64ENC_BYTES a.length) ++ d2) ↔ a.length % 3 = 0 ∨ b = [] := by
  have hla := encode_length a
  have hlb := encode_length b
  have hlab := encode_length (a ++ b)
  have hba : BASE64ENC_BYTES a.length = (encode a).length := by rw [hla]; unfold BASE64ENC_BYTES; omega
  have hbb : BASE64ENC_BUFSIZE b.length = (encode b).length + 1 := by rw [hlb]; unfold BASE64ENC_BUFSIZE BASE64ENC_BYTES; omega
  rw [hba, hbb] at h
  rw [List.length_append] at hlab
  have hd1 := (base64enc_correct dst a (by unfold BASE64ENC_BUFSIZE; rw [hba]; omega)).1
  rw [h1] at hd1
  have hd1' := Except.ok.inj hd1
  rw [put_zero] at hd1'
  have hdrop : d1.drop (encode a).length = 0 :: dst.drop ((encode a).length + 1) := by
    rw [hd1', List.append_assoc, List.drop_left']
    · simp
    · rfl
  have htake : d1.take (encode a).length = encode a := by
    rw [hd1', List.append_assoc, List.take_left']; rfl
  have hd2 := (base64enc_correct (d1.drop (BASE64ENC_BYTES a.length)) b (by
    rw [hba, hbb, hdrop]; simp only [List.length_cons, List.length_drop]; omega)).1
  rw [h2] at hd2
  have hd2' := Except.ok.inj hd2
  rw [put_zero, hba, hdrop] at hd2'
  have hd2'' : d2 = encode b ++ [0] ++ dst.drop ((encode a).length + (encode b).length + 1) := by
    rw [hd2']
    simp only [List.length_append, List.length_singleton, List.drop_succ_cons, List.drop_drop]
    congr 2
    omega
  have h3 := (base64enc_correct dst (a ++ b) (by
    unfold BASE64ENC_BUFSIZE BASE64ENC_BYTES
    rw [List.length_append]; omega)).1
  rw [h3, hba, htake, hd2'', put_zero]
  constructor
  · intro he
    have he' := Except.ok.inj he
    by_cases ha : a.length % 3 = 0
    · exact .inl ha
    · right
      by_contra hb
      have hbl : 0 < b.length := List.length_pos_iff.2 hb
      have e1 : (encode (a ++ b)).length ≤ (encode a).length + (encode b).length := by rw [hla, hlb, hlab]; omega
      have e2 : (encode (a ++ b) ++ [(0 : Byte)] ++ dst.drop (encode (a ++ b) ++ [(0 : Byte)]).length).take (encode (a ++ b)).length = encode (a ++ b) := by
        rw [List.append_assoc, List.take_left']; rfl
      have e3 : (encode a ++ (encode b ++ [0] ++ dst.drop ((encode a).length + (encode b).length + 1)))[(encode (a ++ b)).length]? = some 0 := by
        rw [← he', List.append_assoc, List.getElem?_append_right (by omega), Nat.sub_self]; simp
      rw [← List.append_assoc, ← List.append_assoc] at e3
      by_cases e4 : (encode (a ++ b)).length = (encode a).length + (encode b).length
      · rw [he', ← List.append_assoc, ← List.append_assoc, List.append_assoc, e4, List.take_left' (by simp)] at e2
        exact encode_append_ne ha hb e2.symm
      · have hlt : (encode (a ++ b)).length < (encode a ++ encode b).length := by rw [List.length_append]; omega
        rw [List.append_assoc, List.getElem?_append_left hlt] at e3
        have := List.mem_of_getElem? e3
        rcases List.mem_append.1 this with h | h
        · exact encode_no_zero a h
        · exact encode_no_zero b h
  · rintro (ha | rfl)
    · rw [encode_append a b ha]; simp
      omega
    · simp [encode]

example : base64enc (List.replicate 9 7) (bytes! "abc") = .ok (bytes! "YWJj" ++ ([0, 7, 7, 7, 7] : List Byte)) ∧
    base64enc ([0, 7, 7, 7, 7]) (bytes! "d") = .ok (bytes! "ZA==" ++ [0]) ∧
    base64enc (List.replicate 9 7) (bytes! "abcd") = .ok (bytes! "YWJjZA==" ++ [0]) := by decide

/-- **C201** Texts one after the other: two non-empty texts together are a text exactly if the data of the first has a multiple of three
    bytes, and then they are decoded to the data of both. -/
theorem base64dec_concat_iff (s t x y : List Byte) (hx : x ≠ []) (hy : y ≠ []) (hs : Decodes s x) (ht : Decodes t y) (h0 : 0 ∉ s)
    (h0' : 0 ∉ t) (hl : (s ++ t).length < 2 ^ 31) :
    ((∃ z, z ≠ [] ∧ Decodes (s ++ t) z) ↔ x.length % 3 = 0) ∧ (x.length % 3 = 0 → Decodes (s ++ t) (x ++ y)) := by
  rw [List.length_append] at hl
  obtain ⟨hsn, v, p, hsv, rfl⟩ := (decodes_iff_text h0 (by omega) hx).1 hs
  obtain ⟨htn, u, q, htu, rfl⟩ := (decodes_iff_text h0' (by omega) hy).1 ht
  have h00 : 0 ∉ s ++ t := by
    intro h
    rcases List.mem_append.1 h with h | h
    · exact h0 h
    · exact h0' h
  have hll : (s ++ t).length < 2 ^ 31 := by rw [List.length_append]; omega
  have hpx := pad_of_data hsv hsn
  have hgo : (dataOf v p).length % 3 = 0 → Decodes (s ++ t) (dataOf v p ++ dataOf u q) := by
    intro h3
    have hp0 : p = 0 := by rw [hpx]; unfold padOf; omega
    subst hp0
    obtain ⟨h1, h2⟩ := text_append_ok hsv htu
    have := decodes_of_text h1 hll (by simp [hsn])
    rwa [h2] at this
  refine ⟨⟨?_, fun h => ⟨_, by simp [hx], hgo h⟩⟩, hgo⟩
  rintro ⟨z, hz, hd⟩
  obtain ⟨_, w, r, hw, _⟩ := (decodes_iff_text h00 hll hz).1 hd
  have hp0 := text_append hsv htu htn hw
  rw [hp0] at hpx
  have hp0' : p = 0 := hp0
  unfold padOf at hpx
  rw [hp0']
  omega

example : base64dec (List.replicate 7 7) (bytes! "YWJjZA==" ++ [0]) 7 = .ok (bytes! "abcd" ++ [0, 0, 0], 4) ∧
    base64dec (List.replicate 7 7) (bytes! "ZA==YWJj" ++ [0]) 7 = .ok ([100, 0, 0, 7, 7, 7, 7], 0) := by decide

end Ulz.Props

import Verif.Spec.Base64text
import Verif.Props.Base64
import Mathlib.Tactic.ByContra
namespace Ulz.Base64
open Spec Ulz.Props

theorem sym_inj {a b : Nat} (ha : a < 64) (hb : b < 64) (h : sym a = sym b) : a = b := by
  have h1 := chrpos_sym ha
  rw [h, chrpos_sym hb] at h1
  exact (Option.some.inj h1).symm

theorem encode_append : ∀ a b : List Byte, a.length % 3 = 0 → encode (a ++ b) = encode a ++ encode b
  | [], b, _ => rfl
  | [_], b, h => by simp at h
  | [_, _], b, h => by simp at h
  | x :: y :: z :: r, b, h => by
    have := encode_append r b (by simp only [List.length_cons] at h; omega)
    simp only [List.cons_append, encode, this]

theorem encode_bytesOf : ∀ w : List Nat, (∀ x ∈ w, x < 64) → w.length % 4 = 0 → encode (bytesOf w) = w.map sym
  | [], _, _ => rfl
  | [_], _, h => by simp at h
  | [_, _], _, h => by simp at h
  | [_, _, _], _, h => by simp at h
  | p :: q :: r :: s :: w, hv, h => by
    have ih := encode_bytesOf w (fun x hx => hv x (by simp [hx])) (by simp only [List.length_cons] at h; omega)
    have hp := hv p (by simp)
    have hq := hv q (by simp)
    have hr := hv r (by simp)
    have hs := hv s (by simp)
    simp only [bytesOf, encode, ih, List.map_cons, BitVec.toNat_ofNat]
    congr 1
    · congr 1; omega
    · congr 1
      · congr 1; omega
      · congr 1
        · congr 1; omega
        · congr 2; omega

theorem bytesOf_append : ∀ w u : List Nat, w.length % 4 = 0 → bytesOf (w ++ u) = bytesOf w ++ bytesOf u
  | [], u, _ => rfl
  | [_], _, h => by simp at h
  | [_, _], _, h => by simp at h
  | [_, _, _], _, h => by simp at h
  | p :: q :: r :: s :: w, u, h => by
    have ih := bytesOf_append w u (by simp only [List.length_cons] at h; omega)
    simp only [List.cons_append, bytesOf, ih]

/-- A text is a list of whole groups and a last part. -/
theorem text_parts {s : List Byte} {v : List Nat} {pad : Nat} (h : IsText s v pad) :
    ∃ w u, v = w ++ u ∧ w.length % 4 = 0 ∧ u.length = (4 - pad) % 4 := by
  obtain ⟨_, hp, hs, hm⟩ := h
  have hl : s.length = v.length + pad := by rw [hs]; simp
  refine ⟨v.take (v.length / 4 * 4), v.drop (v.length / 4 * 4), (List.take_append_drop _ _).symm, ?_, ?_⟩
  · rw [List.length_take]; omega
  · rw [List.length_drop]; omega

/-- The data of a text. -/
def dataOf (v : List Nat) (pad : Nat) : List Byte := (bytesOf (v ++ List.replicate pad 0)).take ((v.length + pad) / 4 * 3 - pad)

theorem dataOf_length {s : List Byte} {v : List Nat} {pad : Nat} (h : IsText s v pad) :
    (dataOf v pad).length = s.length / 4 * 3 - pad := by
  obtain ⟨_, hp, hs, hm⟩ := h
  have hl : s.length = v.length + pad := by rw [hs]; simp
  rw [dataOf, List.length_take, bytesOf_length, hl]
  simp only [List.length_append, List.length_replicate]
  omega

/-- What the encoder makes of the data of a text, and the byte behind the data. -/
theorem encode_dataOf {s : List Byte} {v : List Nat} {pad : Nat} (h : IsText s v pad) (hs : s ≠ []) :
    ∃ p c, v = p ++ [c] ∧ c < 64 ∧ encode (dataOf v pad) = p.map sym ++ sym (c / 4 ^ pad * 4 ^ pad) :: List.replicate pad 61 ∧
      ((bytesOf (v ++ List.replicate pad 0) ++ [0])[s.length / 4 * 3 - pad]? = some 0 ↔ c % 4 ^ pad = 0) := by
  obtain ⟨w, u, hv, hw, hu⟩ := text_parts h
  obtain ⟨h64, hp, htx, hm⟩ := h
  have hl : s.length = v.length + pad := by rw [htx]; simp
  have hle : (v.length + pad) / 4 * 3 = 3 * (w.length / 4) + (if pad = 0 then 0 else 3) := by
    have : v.length = w.length + u.length := by rw [hv]; simp
    split <;> omega
  have hwl : (bytesOf w).length = 3 * (w.length / 4) := bytesOf_length w
  have hdl : (bytesOf w).length % 3 = 0 := by rw [hwl]; omega
  have hwe := encode_bytesOf w (fun x hx => h64 x (by rw [hv]; simp [hx])) hw
  match pad, hp, u, hu with
  | 0, _, [], _ =>
    simp only [List.append_nil] at hv
    subst hv
    have hne : v ≠ [] := by
      rintro rfl; apply hs; rw [htx]; rfl
    refine ⟨v.dropLast, v.getLast hne, (List.dropLast_concat_getLast hne).symm, h64 _ (List.getLast_mem hne), ?_, ?_⟩
    · have : dataOf v 0 = bytesOf v := by
        simp only [dataOf, List.replicate, List.append_nil, Nat.add_zero, Nat.sub_zero]
        apply List.take_of_length_le
        rw [hwl]; omega
      rw [this, hwe]
      simp only [Nat.pow_zero, Nat.div_one, Nat.mul_one, List.replicate]
      rw [← List.map_singleton, ← List.map_append, List.dropLast_concat_getLast]
    · simp only [List.replicate, List.append_nil, Nat.sub_zero, Nat.pow_zero, Nat.mod_one, iff_true]
      rw [List.getElem?_append_right (by rw [hwl]; omega)]
      have : s.length / 4 * 3 - (bytesOf v).length = 0 := by rw [hwl]; omega
      rw [this]; rfl
  | 1, _, [a, b, c], _ =>
    have ha : a < 64 := h64 a (by rw [hv]; simp)
    have hb : b < 64 := h64 b (by rw [hv]; simp)
    have hc : c < 64 := h64 c (by rw [hv]; simp)
    have hby : bytesOf (v ++ List.replicate 1 0) = bytesOf w ++ [BitVec.ofNat 8 (a * 4 + b / 16), BitVec.ofNat 8 (b % 16 * 16 + c / 4),
        BitVec.ofNat 8 (c % 4 * 64)] := by
      rw [hv, List.append_assoc, bytesOf_append w _ hw]; rfl
    have hd : dataOf v 1 = bytesOf w ++ [BitVec.ofNat 8 (a * 4 + b / 16), BitVec.ofNat 8 (b % 16 * 16 + c / 4)] := by
      have : (v.length + 1) / 4 * 3 - 1 = (bytesOf w).length + 2 := by rw [hle, hwl]; simp
      rw [dataOf, hby, this, List.take_length_add_append]; rfl
    refine ⟨w ++ [a, b], c, by rw [hv]; simp, hc, ?_, ?_⟩
    · rw [hd, encode_append _ _ hdl, hwe]
      simp only [encode, BitVec.toNat_ofNat, List.map_append, List.map_cons, List.map_nil, List.append_assoc, List.cons_append,
        List.nil_append, List.replicate, Nat.pow_one]
      congr 2
      · congr 1; omega
      · congr 1
        · congr 1; omega
        · congr 2; omega
    · have hi : s.length / 4 * 3 - 1 = (bytesOf w).length + 2 := by rw [hl, hle, hwl]; simp
      rw [hby, hi, List.append_assoc, List.getElem?_append_right (by omega), Nat.add_sub_cancel_left]
      simp only [List.cons_append, List.nil_append, List.getElem?_cons_succ, List.getElem?_cons_zero, Option.some.injEq, Nat.pow_one]
      constructor
      · intro h
        have := congrArg BitVec.toNat h
        simp only [BitVec.toNat_ofNat] at this
        change _ = 0 at this
        first | omega | (show _ % 16 = 0; omega)
      · intro h; rw [h]; rfl
  | 2, _, [a, b], _ =>
    have ha : a < 64 := h64 a (by rw [hv]; simp)
    have hb : b < 64 := h64 b (by rw [hv]; simp)
    have hby : bytesOf (v ++ List.replicate 2 0) = bytesOf w ++ [BitVec.ofNat 8 (a * 4 + b / 16), BitVec.ofNat 8 (b % 16 * 16), 0] := by
      rw [hv, List.append_assoc, bytesOf_append w _ hw]; rfl
    have hd : dataOf v 2 = bytesOf w ++ [BitVec.ofNat 8 (a * 4 + b / 16)] := by
      have : (v.length + 2) / 4 * 3 - 2 = (bytesOf w).length + 1 := by rw [hle, hwl]; simp
      rw [dataOf, hby, this, List.take_length_add_append]; rfl
    refine ⟨w ++ [a], b, by rw [hv]; simp, hb, ?_, ?_⟩
    · rw [hd, encode_append _ _ hdl, hwe]
      simp only [encode, BitVec.toNat_ofNat, List.map_append, List.map_cons, List.map_nil, List.append_assoc, List.cons_append,
        List.nil_append, List.replicate]
      congr 2
      · congr 1; omega
      · congr 2; omega
    · have hi : s.length / 4 * 3 - 2 = (bytesOf w).length + 1 := by rw [hl, hle, hwl]; simp
      rw [hby, hi, List.append_assoc, List.getElem?_append_right (by omega), Nat.add_sub_cancel_left]
      simp only [List.cons_append, List.nil_append, List.getElem?_cons_succ, List.getElem?_cons_zero, Option.some.injEq]
      constructor
      · intro h
        have := congrArg BitVec.toNat h
        simp only [BitVec.toNat_ofNat] at this
        change _ = 0 at this
        first | omega | (show _ % 16 = 0; omega)
      · intro h
        have : b % 16 = 0 := h
        rw [this]; rfl

theorem decodes_of_text {s : List Byte} {v : List Nat} {pad : Nat} (h : IsText s v pad) (hs : s.length < 2 ^ 31) (hne : s ≠ []) :
    Decodes s (dataOf v pad) := by
  intro junk dst hd
  have h0 : 0 ∉ s := by
    rw [h.2.2.1]
    simp only [List.mem_append, List.mem_map, not_or, List.mem_replicate]
    refine ⟨?_, ?_⟩
    · rintro ⟨x, hx, hz⟩
      exact (sym_ne (h.1 x hx)).2 hz
    · rintro ⟨_, hz⟩; exact absurd hz (by decide)
  obtain ⟨d, n, hr, hl, hn, hv⟩ := base64dec_safe_and_exact s junk dst h0 hs
  have hn' : n ≠ 0 := hn.2 ⟨hne, ⟨v, pad, h⟩, by unfold BASE64DEC_BYTES; omega⟩
  obtain ⟨h1, h2⟩ := hv v pad h hn'
  have hdl := dataOf_length h
  have hsl : s.length = v.length + pad := by rw [h.2.2.1]; simp
  unfold BASE64DEC_BYTES at h1
  have hle : s.length / 4 * 3 - pad ≤ (bytesOf (v ++ List.replicate pad 0)).length := by
    rw [bytesOf_length]; simp only [List.length_append, List.length_replicate, ← hsl]; omega
  refine ⟨d, by rw [hr, h1, hdl], hl, ?_⟩
  rw [h2, hdl, put_zero, List.append_assoc, List.take_append_of_le_length hle, dataOf, ← hsl]

theorem decodes_det {s x y : List Byte} (h1 : Decodes s x) (h2 : Decodes s y) : x = y := by
  obtain ⟨d, h, _, ht⟩ := h1 [] (List.replicate (s.length / 4 * 3 + 1) 0) (by simp)
  obtain ⟨d', h', _, ht'⟩ := h2 [] (List.replicate (s.length / 4 * 3 + 1) 0) (by simp)
  rw [h] at h'
  have := Except.ok.inj h'
  obtain ⟨rfl, hn⟩ := Prod.mk.inj this
  rw [← ht, ← ht', hn]

/-- The texts that are decoded to given data. -/
theorem decodes_iff_text {s x : List Byte} (h0 : 0 ∉ s) (hs : s.length < 2 ^ 31) (hx : x ≠ []) :
    Decodes s x ↔ s ≠ [] ∧ ∃ v pad, IsText s v pad ∧ x = dataOf v pad := by
  constructor
  · intro h
    obtain ⟨d, hr, _, _⟩ := h [] (List.replicate (s.length / 4 * 3 + 1) 0) (by simp)
    obtain ⟨d', n, hr', _, hn, _⟩ := base64dec_safe_and_exact s [] (List.replicate (s.length / 4 * 3 + 1) 0) h0 hs
    rw [hr] at hr'
    obtain ⟨_, hnn⟩ := Prod.mk.inj (Except.ok.inj hr')
    have : n ≠ 0 := by
      rw [← hnn]; intro h; exact hx (List.eq_nil_of_length_eq_zero h)
    obtain ⟨hne, ⟨v, pad, ht⟩, _⟩ := hn.1 this
    exact ⟨hne, v, pad, ht, decodes_det h (decodes_of_text ht hs hne)⟩
  · rintro ⟨hne, v, pad, ht, rfl⟩
    exact decodes_of_text ht hs hne

theorem encode_ne_nil {x : List Byte} (hx : x ≠ []) : encode x ≠ [] := by
  intro h
  have := encode_length x
  rw [h] at this
  have : 0 < x.length := List.length_pos_iff.2 hx
  simp at *
  omega

/-- The text of the encoder, with its parts. -/
theorem encode_parts {x : List Byte} (hx : x ≠ []) :
    ∃ p c, (∀ y ∈ p, y < 64) ∧ c < 64 ∧ IsText (encode x) (p ++ [c]) (padOf x.length) ∧ c % 4 ^ padOf x.length = 0 ∧
      dataOf (p ++ [c]) (padOf x.length) = x := by
  obtain ⟨v, pad, fill, ht, h1, h2, h3⟩ := encode_isText x
  have hp : pad = padOf x.length := by
    have := ht.2.1
    unfold padOf; omega
  subst hp
  have hd : dataOf v (padOf x.length) = x := by
    rw [dataOf, h3, h1]
    have : 4 * ((x.length + 2) / 3) / 4 * 3 - padOf x.length = x.length := by omega
    rw [this, List.take_left']
    rfl
  obtain ⟨p, c, hv, hc, he, -⟩ := encode_dataOf ht (encode_ne_nil hx)
  subst hv
  refine ⟨p, c, fun y hy => ht.1 y (by simp [hy]), hc, ht, ?_, hd⟩
  rw [hd, ht.2.2.1, List.map_append, List.append_assoc, List.map_singleton] at he
  have := List.append_cancel_left he
  simp only [List.cons_append, List.nil_append, List.cons.injEq, and_true] at this
  have hle : c / 4 ^ padOf x.length * 4 ^ padOf x.length ≤ c := Nat.div_mul_le_self _ _
  have := sym_inj hc (by omega) this
  have h5 := Nat.div_add_mod c (4 ^ padOf x.length)
  rw [Nat.mul_comm] at h5
  omega

theorem decodes_encode {x : List Byte} (hx : x ≠ []) (hs : (encode x).length < 2 ^ 31) : Decodes (encode x) x := by
  obtain ⟨p, c, _, _, ht, _, hd⟩ := encode_parts hx
  have := decodes_of_text ht hs (encode_ne_nil hx)
  rwa [hd] at this

theorem padOf_le (n : Nat) : padOf n ≤ 2 := by unfold padOf; omega

theorem pad_of_data {s : List Byte} {v : List Nat} {pad : Nat} (h : IsText s v pad) (hs : s ≠ []) :
    pad = padOf (dataOf v pad).length := by
  have h1 := dataOf_length h
  have h2 : 0 < s.length := List.length_pos_iff.2 hs
  have h3 := h.2.1
  have h4 := h.2.2.2
  unfold padOf
  omega

theorem no_zero_of_text {s : List Byte} {v : List Nat} {pad : Nat} (h : IsText s v pad) : 0 ∉ s := by
  rw [h.2.2.1]
  simp only [List.mem_append, List.mem_map, not_or, List.mem_replicate]
  refine ⟨?_, ?_⟩
  · rintro ⟨x, hx, hz⟩
    exact (sym_ne (h.1 x hx)).2 hz
  · rintro ⟨_, hz⟩; exact absurd hz (by decide)

/-- Two texts of which the first has padding are not a text. -/
theorem text_append {s t : List Byte} {v u w : List Nat} {p q r : Nat} (hs : IsText s v p) (ht : IsText t u q) (htn : t ≠ [])
    (h : IsText (s ++ t) w r) : p = 0 := by
  by_contra hp
  have htl : 0 < t.length := List.length_pos_iff.2 htn
  have ht4 := ht.2.2.2
  have hsl : s.length = v.length + p := by rw [hs.2.2.1]; simp
  have hwl : (s ++ t).length = w.length + r := by rw [h.2.2.1]; simp
  have hr := h.2.1
  rw [List.length_append] at hwl
  have h1 : (s ++ t)[v.length]? = some 61 := by
    rw [List.getElem?_append_left (by omega), hs.2.2.1, List.getElem?_append_right (by simp)]
    simp only [List.length_map, Nat.sub_self]
    rw [List.getElem?_replicate, if_pos (by omega)]
  have hlt : v.length < w.length := by omega
  rw [h.2.2.1, List.getElem?_append_left (by simpa using hlt), List.getElem?_map, List.getElem?_eq_getElem hlt] at h1
  exact (sym_ne (h.1 _ (List.getElem_mem hlt))).1 (Option.some.inj h1)

theorem text_append_ok {s t : List Byte} {v u : List Nat} {q : Nat} (hs : IsText s v 0) (ht : IsText t u q) :
    IsText (s ++ t) (v ++ u) q ∧ dataOf (v ++ u) q = dataOf v 0 ++ dataOf u q := by
  have hv4 : v.length % 4 = 0 := by
    have := hs.2.2.2
    rw [hs.2.2.1] at this
    simpa using this
  refine ⟨⟨?_, ht.2.1, ?_, ?_⟩, ?_⟩
  · intro x hx
    rcases List.mem_append.1 hx with h | h
    · exact hs.1 x h
    · exact ht.1 x h
  · rw [hs.2.2.1, ht.2.2.1]; simp
  · have h1 := hs.2.2.2
    have h2 := ht.2.2.2
    rw [List.length_append]; omega
  · have hul : (u.length + q) % 4 = 0 := by
      have := ht.2.2.2
      rw [ht.2.2.1] at this
      simpa using this
    have hq := ht.2.1
    have hb := bytesOf_length v
    have h0 : dataOf v 0 = bytesOf v := by
      simp only [dataOf, List.replicate, List.append_nil, Nat.add_zero, Nat.sub_zero]
      apply List.take_of_length_le
      omega
    rw [h0]
    unfold dataOf
    rw [List.append_assoc, bytesOf_append _ _ hv4, List.length_append]
    by_cases hz : u.length + q = 0
    · have hu : u = [] := List.eq_nil_of_length_eq_zero (by omega)
      have hq0 : q = 0 := by omega
      subst hu hq0
      simp only [List.replicate, List.append_nil, bytesOf, List.length_nil, Nat.add_zero, Nat.sub_zero, List.take_nil]
      apply List.take_of_length_le
      omega
    · have : (v.length + u.length + q) / 4 * 3 - q = (bytesOf v).length + ((u.length + q) / 4 * 3 - q) := by omega
      rw [this, List.take_length_add_append]

theorem encode_append_ne {a b : List Byte} (ha : a.length % 3 ≠ 0) (hb : b ≠ []) : encode (a ++ b) ≠ encode a ++ encode b := by
  intro h
  have hx : a ≠ [] := by rintro rfl; simp at ha
  obtain ⟨p, c, _, _, ht, _⟩ := encode_parts hx
  obtain ⟨p', c', _, _, ht', _⟩ := encode_parts hb
  obtain ⟨p'', c'', _, _, ht'', _⟩ := encode_parts (x := a ++ b) (by simp [hx])
  rw [h] at ht''
  have := text_append ht ht' (encode_ne_nil hb) ht''
  unfold padOf at this
  omega

end Ulz.Base64

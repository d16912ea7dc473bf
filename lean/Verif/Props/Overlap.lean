import Verif.Proofs.Overlap
import Verif.Props.Base64
import Verif.Props.Hex
/-! C167, C168: the converting functions of strlib with source and destination in one object. -/
namespace Ulz.Props
open Ulz.Overlap

theorem overlap_get (mem : List Byte) (dp sp i : Nat) : (mem.take dp ++ mem.drop dp)[sp + i]? = (mem.drop sp)[i]? := by
  rw [List.take_append_drop, List.getElem?_drop]

/-- C167: base64dec from offset `sp` to offset `dp` of the same object does what it does with separate objects if the destination begins
    at most one byte behind the begin of the text (or behind its terminator). -/
theorem base64dec_overlap (mem : List Byte) (dp sp dst_len : Nat) (hdp : dp ≤ mem.length)
    (h : dp ≤ sp + 1 ∨ 0 ∈ (mem.drop sp).take (dp - sp)) :
    base64dec mem dp sp dst_len = (Base64.base64dec (mem.drop dp) (mem.drop sp) dst_len).map fun r => (mem.take dp ++ r.1, r.2) := by
  unfold base64dec Base64.base64dec
  by_cases hl : dst_len ≠ 0
  · rw [if_pos hl, if_pos hl]
    have hP : (mem.take dp).length = dp := by rw [List.length_take]; omega
    have key := decLoop_same (mem.take dp) sp (mem.drop sp) (mem.length + 1) sp
      (if dp ≤ sp + 1 then (mem.drop sp).length + 1 else dp - sp) { dst := mem.drop dp, l := dst_len }
      (by rw [List.length_drop]; omega) (fun i _ => overlap_get mem dp sp i) (by
        split
        · left; omega
        · rename_i hn; right; exact h.resolve_left hn) (by simp) rfl (by
        rw [hP]
        split
        · left; assumption
        · right; omega)
    have e : shiftSt (mem.take dp) { dst := mem.drop dp, l := dst_len } = { dst := mem, d := dp, l := dst_len } := by
      unfold shiftSt
      simp only [List.take_append_drop, hP, Nat.add_zero]
    rw [e] at key
    exact key
  · rw [if_neg hl, if_neg hl]
    simp only [pure_eq_ok, map_ok, List.take_append_drop]

/-- C167: base64enc likewise, if the source begins at least `(count - 1) / 3` bytes behind the destination (or ends before it). -/
theorem base64enc_overlap (mem : List Byte) (dp sp count : Nat) (hdp : dp ≤ mem.length) (hsp : sp + count ≤ mem.length)
    (h : count = 0 ∨ dp + (count - 1) / 3 ≤ sp ∨ sp + count ≤ dp) :
    base64enc mem dp sp count = (Base64.base64enc (mem.drop dp) ((mem.drop sp).take count)).map (mem.take dp ++ ·) := by
  have hP : (mem.take dp).length = dp := by rw [List.length_take]; omega
  have hc : ((mem.drop sp).take count).length = count := by rw [List.length_take, List.length_drop]; omega
  have key := encLoop_same (mem.take dp) ((mem.drop sp).take count) (mem.drop dp) 0 sp (by
    intro i hi
    rw [hc] at hi
    rw [overlap_get, List.getElem?_take_of_lt hi]) (by rw [hc, hP]; omega)
  rw [hc, hP, List.take_append_drop] at key
  exact key

/-- C167: raw2hex likewise, if the source begins at least `len` bytes behind the destination (or ends before it). -/
theorem raw2hex_overlap (mem : List Byte) (dp sp len : Nat) (hdp : dp ≤ mem.length) (hsp : sp + len ≤ mem.length)
    (h : dp + len ≤ sp ∨ sp + len ≤ dp) :
    raw2hex mem dp sp len = (Hex.raw2hex (mem.drop dp) ((mem.drop sp).take len)).map (mem.take dp ++ ·) := by
  have hP : (mem.take dp).length = dp := by rw [List.length_take]; omega
  have hc : ((mem.drop sp).take len).length = len := by rw [List.length_take, List.length_drop]; omega
  have key := raw2hexLoop_same (mem.take dp) ((mem.drop sp).take len) (mem.drop dp) 0 sp (by
    intro i hi
    rw [hc] at hi
    rw [overlap_get, List.getElem?_take_of_lt hi]) (by rw [hc, hP]; omega)
  rw [hc, hP, List.take_append_drop] at key
  exact key

/-- C167: hex2raw likewise, if the destination does not begin behind the begin of the text, or one byte behind if the text has an even
    number of characters (or behind the terminator). -/
theorem hex2raw_overlap (mem s junk : List Byte) (dp sp : Nat) (hdp : dp ≤ mem.length) (hs : mem.drop sp = s ++ 0 :: junk) (h0 : 0 ∉ s)
    (h : dp + s.length % 2 ≤ sp + 1 ∨ sp + s.length < dp) :
    hex2raw mem sp dp = (Hex.hex2raw (mem.drop sp) (mem.drop dp)).map fun r => (mem.take dp ++ r.1, r.2) := by
  have hP : (mem.take dp).length = dp := by rw [List.length_take]; omega
  have hlen := congrArg List.length hs
  simp only [List.length_drop, List.length_append, List.length_cons] at hlen
  unfold hex2raw Hex.hex2raw
  rw [hs, Hex.strlen_cstr s junk h0, ok_bind, ok_bind]
  by_cases hodd : s.length % 2 = 1
  · rw [if_pos hodd, if_pos hodd]
    obtain ⟨c, s', rfl⟩ : ∃ c s', s = c :: s' := by
      cases s with
      | nil => simp at hodd
      | cons c s' => exact ⟨c, s', rfl⟩
    have hget : mem[sp]? = some c := by
      have := congrArg (·[0]?) hs
      simpa [List.getElem?_drop] using this
    rw [rd_of hget, ok_bind]
    simp only [List.cons_append]
    have e := wr_shift' (mem.take dp) (mem.drop dp) dp 0 (by omega) (Hex.hvalByte c)
    rw [List.take_append_drop] at e
    rw [e]
    cases e1 : wr (mem.drop dp) 0 (Hex.hvalByte c) with
    | error u => rfl
    | ok D1 =>
      have o1 := wr_off e1
      rw [map_ok, ok_bind, ok_bind]
      have hl1 : (mem.take dp ++ D1).length = mem.length := by
        rw [List.length_append, o1.len, ← List.length_append, List.take_append_drop]
      have key := hex2rawLoop_same (mem.take dp) (mem.length + 1) (s' ++ 0 :: junk) D1 1 (sp + 1)
        (if dp ≤ sp then (s' ++ 0 :: junk).length + 1 else dp - (sp + 1))
        (by simp only [List.length_append, List.length_cons] at hlen ⊢; omega) (by
          intro i hi
          simp only [List.length_cons] at hodd h
          rw [o1.read (by rw [hP]; split at hi <;> omega), show sp + 1 + i = sp + (i + 1) by omega, overlap_get, hs]
          rfl) (by
          split
          · left; omega
          · right
            simp only [List.length_cons] at hodd h
            refine ⟨s'.length / 2, by omega, ?_⟩
            rw [show 2 * (s'.length / 2) = s'.length by omega]
            simp) (by
          rw [hP]
          simp only [List.length_cons] at hodd h
          split
          · left; omega
          · right; omega)
      rw [hP] at key
      rw [hl1, key]
      cases Hex.hex2rawLoop D1 1 (s' ++ 0 :: junk) with
      | error u => rfl
      | ok D2 => rfl
  · rw [if_neg hodd, if_neg hodd]
    have key := hex2rawLoop_same (mem.take dp) (mem.length + 1) (s ++ 0 :: junk) (mem.drop dp) 0 sp
      (if dp ≤ sp + 1 then (s ++ 0 :: junk).length + 1 else dp - sp)
      (by simp only [List.length_append, List.length_cons] at hlen ⊢; omega) (by
        intro i hi
        rw [overlap_get, hs]) (by
        split
        · left; omega
        · right
          refine ⟨s.length / 2, by omega, ?_⟩
          rw [show 2 * (s.length / 2) = s.length by omega]
          simp) (by
        rw [hP]
        split
        · left; omega
        · right; omega)
    rw [hP, List.take_append_drop] at key
    rw [show dp + 0 = dp from rfl] at key
    rw [key]
    cases Hex.hex2rawLoop (mem.drop dp) 0 (s ++ 0 :: junk) with
    | error u => rfl
    | ok D2 => rfl

/-- C167: rc4 likewise, if the destination does not begin behind the begin of the source (or begins behind its end). -/
theorem rc4_overlap (mem key : List Byte) (dp sp len : Nat) (hdp : dp ≤ mem.length) (h : dp ≤ sp ∨ sp + len ≤ dp) :
    rc4 mem dp sp len key = (Rc4.rc4 (mem.drop dp) (mem.drop sp) len key).map (mem.take dp ++ ·) := by
  have hP : (mem.take dp).length = dp := by rw [List.length_take]; omega
  unfold rc4 Rc4.rc4
  cases Rc4.initBox key with
  | error u => rfl
  | ok box =>
    rw [ok_bind, ok_bind]
    have := crypt_same (mem.take dp) (mem.drop sp) sp len 0 0 0 box (mem.drop dp) (fun i _ _ => overlap_get mem dp sp i) (by rw [hP]; omega)
    rw [hP, List.take_append_drop] at this
    exact this

/-! ### What a user gets -/

/-- C167: a base64 text can be decoded where it is. -/
theorem base64dec_in_place (src junk : List Byte) (hsize : BASE64ENC_BYTES src.length < 2^31) :
    ∃ d, base64dec (Base64.Spec.encode src ++ 0 :: junk) 0 0 (Base64.Spec.encode src ++ 0 :: junk).length = .ok (d, src.length) ∧
      d.take src.length = src := by
  have hlen := Base64.encode_length src
  obtain ⟨e, d, h1, _, h2, _, h3⟩ := base64_roundtrip src (Base64.Spec.encode src ++ 0 :: junk) (Base64.Spec.encode src ++ 0 :: junk)
    (by unfold BASE64ENC_BUFSIZE BASE64ENC_BYTES; simp only [List.length_append, List.length_cons]; omega)
    (by unfold BASE64DEC_BUFSIZE BASE64DEC_BYTES BASE64ENC_BYTES; simp only [List.length_append, List.length_cons]; omega) hsize
  have h4 := (base64enc_correct (Base64.Spec.encode src ++ 0 :: junk) src
    (by unfold BASE64ENC_BUFSIZE BASE64ENC_BYTES; simp only [List.length_append, List.length_cons]; omega)).1
  rw [h1] at h4
  have h5 : e = Base64.Spec.encode src ++ 0 :: junk := by
    have := Except.ok.inj h4
    rw [this, put_zero]
    simp
  rw [h5] at h2
  refine ⟨d, ?_, h3⟩
  rw [base64dec_overlap _ 0 0 _ (by simp) (.inl (by omega)), List.drop_zero, h2, map_ok]
  simp

/-- C167: bytes at the end of a buffer of the size for their base64 text can be encoded to its begin. -/
theorem base64enc_in_place (mem : List Byte) (count : Nat) (hc : mem.length = BASE64ENC_BUFSIZE count) :
    base64enc mem 0 (mem.length - count) count = .ok (Base64.Spec.encode (mem.drop (mem.length - count)) ++ [0]) := by
  have hlen : count ≤ mem.length := by rw [hc]; unfold BASE64ENC_BUFSIZE BASE64ENC_BYTES; omega
  have hl : (mem.drop (mem.length - count)).length = count := by rw [List.length_drop]; omega
  rw [base64enc_overlap mem 0 _ count (by omega) (by omega) (by
    rw [hc]; unfold BASE64ENC_BUFSIZE BASE64ENC_BYTES; omega)]
  rw [List.take_of_length_le (l := mem.drop (mem.length - count)) (by omega), List.drop_zero]
  have h1 := base64enc_correct mem (mem.drop (mem.length - count)) (by rw [hl]; omega)
  rw [h1.1, map_ok, put_zero]
  have h2 := h1.2
  rw [hl] at h2
  have hd : mem.drop (Base64.Spec.encode (mem.drop (mem.length - count)) ++ [0]).length = [] := by
    refine List.drop_of_length_le ?_
    rw [List.length_append, h2, hc]
    simp [BASE64ENC_BUFSIZE]; omega
  rw [hd]
  simp

/-- C167: bytes at the end of a buffer of the size for their hex text can be converted to its begin. -/
theorem raw2hex_in_place (mem : List Byte) (len : Nat) (hc : mem.length = 2 * len + 1) :
    raw2hex mem 0 (len + 1) len = .ok (Hex.Spec.text (mem.drop (len + 1)) ++ [0]) := by
  have hl : (mem.drop (len + 1)).length = len := by rw [List.length_drop]; omega
  rw [raw2hex_overlap mem 0 _ len (by omega) (by omega) (by omega), List.take_of_length_le (l := mem.drop (len + 1)) (by omega), List.drop_zero]
  have h1 := raw2hex_correct mem (mem.drop (len + 1)) (by rw [hl]; omega)
  rw [h1.1, map_ok, put_zero]
  have h2 := h1.2
  rw [hl] at h2
  have hd : mem.drop (Hex.Spec.text (mem.drop (len + 1)) ++ [0]).length = [] := by
    refine List.drop_of_length_le ?_
    rw [List.length_append, h2, hc]
    simp
  rw [hd]
  simp

/-- C167: a hex text can be converted where it is. -/
theorem hex2raw_in_place (src junk : List Byte) :
    hex2raw (Hex.Spec.text src ++ 0 :: junk) 0 0 = .ok (put (Hex.Spec.text src ++ 0 :: junk) 0 src, src.length) := by
  have hl := Hex.text_length src
  rw [hex2raw_overlap (Hex.Spec.text src ++ 0 :: junk) (Hex.Spec.text src) junk 0 0 (by simp) rfl (Hex.text_ne_zero src) (by omega), List.drop_zero]
  obtain ⟨e, h1, h2⟩ := hex_roundtrip src (Hex.Spec.text src ++ 0 :: junk) (Hex.Spec.text src ++ 0 :: junk)
    (by simp only [List.length_append, List.length_cons]; omega) (by simp only [List.length_append, List.length_cons]; omega)
  have h3 := (raw2hex_correct (Hex.Spec.text src ++ 0 :: junk) src (by simp only [List.length_append, List.length_cons]; omega)).1
  rw [h1] at h3
  have h5 : e = Hex.Spec.text src ++ 0 :: junk := by
    rw [Except.ok.inj h3, put_zero]; simp
  rw [h5] at h2
  rw [h2, map_ok]
  simp

/-! ### Bounds -/

/-- C168: rc4 to a destination that begins `δ` bytes behind the begin of the source, and before its end, is right exactly if every byte
    of the source is by chance the encryption of the byte `δ` places before. -/
theorem rc4_behind_iff (mem key : List Byte) (sp δ len : Nat) (hk : 0 < key.length) (hδ : 0 < δ) (hlen : sp + δ + len ≤ mem.length) :
    ∃ out, rc4 mem (sp + δ) sp len key = .ok (put mem (sp + δ) out) ∧ out.length = len ∧
      (out = List.zipWith (· ^^^ ·) ((mem.drop sp).take len) (Rc4.Spec.keystream key hk len) ↔
        ∀ x, x + δ < len → mem[sp + δ + x]? =
          (List.zipWith (· ^^^ ·) ((mem.drop sp).take len) (Rc4.Spec.keystream key hk len))[x]?) := by
  obtain ⟨box, hb, hrep⟩ := Rc4.initBox_rep key hk
  obtain ⟨out, h1, h2, h3, h4⟩ := crypt_behind mem sp δ hδ len 0 0 0 box _ [] rfl (by omega) hrep
  refine ⟨out, ?_, by simpa using h2, ?_⟩
  · unfold rc4
    rw [hb, ok_bind]
    simpa using h1
  · rw [show Rc4.Spec.prga len (Rc4.Spec.ksa key hk 256).1 0 0 = Rc4.Spec.keystream key hk len from rfl] at h4
    have hkl : (Rc4.Spec.keystream key hk len).length = len := by simp [Rc4.Spec.keystream, Rc4.prga_length]
    have hz : ∀ x, x < len → ∃ k, (Rc4.Spec.keystream key hk len)[x]? = some k ∧
        (List.zipWith (· ^^^ ·) ((mem.drop sp).take len) (Rc4.Spec.keystream key hk len))[x]? = (mem[sp + x]?).map (· ^^^ k) := by
      intro x hx
      obtain ⟨k, hk'⟩ : ∃ k, (Rc4.Spec.keystream key hk len)[x]? = some k := ⟨_, List.getElem?_eq_getElem (by rw [hkl]; exact hx)⟩
      refine ⟨k, hk', ?_⟩
      rw [List.getElem?_zipWith, hk', List.getElem?_take_of_lt hx, List.getElem?_drop]
      cases mem[sp + x]? <;> rfl
    have hnx : 0 + len = len := Nat.zero_add _
    constructor
    · intro he x hx
      obtain ⟨k, k1, k2⟩ := hz (x + δ) hx
      have h5 := h4 (x + δ) (by omega) (by omega)
      rw [Nat.sub_zero, k1, if_neg (by omega), Nat.add_sub_cancel] at h5
      rw [he] at h5
      rw [k2] at h5
      have e : sp + (x + δ) = sp + δ + x := by omega
      rw [e] at h5
      obtain ⟨a, ha⟩ : ∃ a, mem[sp + δ + x]? = some a := ⟨_, List.getElem?_eq_getElem (by omega)⟩
      obtain ⟨b, hb'⟩ : ∃ b, (List.zipWith (· ^^^ ·) ((mem.drop sp).take len) (Rc4.Spec.keystream key hk len))[x]? = some b :=
        ⟨_, List.getElem?_eq_getElem (by rw [← he, h2]; omega)⟩
      rw [ha, hb'] at h5 ⊢
      simp only [Option.map_some, Option.bind_some, Option.some.injEq] at h5
      have := congrArg (· ^^^ k) h5
      simp only [BitVec.xor_assoc, BitVec.xor_self, BitVec.xor_zero] at this
      rw [this]
    · intro hall
      have main : ∀ n, ∀ x, x < n → x < len →
          out[x]? = (List.zipWith (· ^^^ ·) ((mem.drop sp).take len) (Rc4.Spec.keystream key hk len))[x]? := by
        intro n
        induction n with
        | zero => intro x hx; omega
        | succ n ih =>
          intro x hx hxl
          obtain ⟨k, k1, k2⟩ := hz x hxl
          have h5 := h4 x (by omega) (by omega)
          rw [Nat.sub_zero, k1] at h5
          rw [h5, k2]
          by_cases hxd : x < δ
          · rw [if_pos hxd]
            cases mem[sp + x]? <;> rfl
          · rw [if_neg hxd, ih (x - δ) (by omega) (by omega), ← hall (x - δ) (by omega)]
            rw [show sp + δ + (x - δ) = sp + x by omega]
            cases mem[sp + x]? <;> rfl
      refine List.ext_getElem? ?_
      intro x
      by_cases hxl : x < len
      · exact main (x + 1) x (by omega) hxl
      · rw [List.getElem?_eq_none (by rw [h2]; omega), List.getElem?_eq_none]
        simp only [List.length_zipWith, hkl]; omega

/-- C168: the bounds of C167 cannot be relaxed: one byte further and the result differs. -/
theorem overlap_bounds_tight :
    (∃ mem dst_len, ∃ dp sp, dp = sp + 2 ∧ base64dec mem dp sp dst_len ≠
      (Base64.base64dec (mem.drop dp) (mem.drop sp) dst_len).map fun r => (mem.take dp ++ r.1, r.2)) ∧
    (∃ mem, ∃ dp sp count, dp + (count - 1) / 3 = sp + 1 ∧ sp + count ≤ mem.length ∧ base64enc mem dp sp count ≠
      (Base64.base64enc (mem.drop dp) ((mem.drop sp).take count)).map (mem.take dp ++ ·)) ∧
    (∃ mem, ∃ dp sp len, dp + len = sp + 1 ∧ sp + len ≤ mem.length ∧ raw2hex mem dp sp len ≠
      (Hex.raw2hex (mem.drop dp) ((mem.drop sp).take len)).map (mem.take dp ++ ·)) ∧
    (∃ mem, ∃ dp sp, dp = sp + 1 ∧ hex2raw mem sp dp ≠
      (Hex.hex2raw (mem.drop sp) (mem.drop dp)).map fun r => (mem.take dp ++ r.1, r.2)) ∧
    (∃ mem, ∃ dp sp, dp = sp + 2 ∧ mem.length % 2 = 1 ∧ hex2raw mem sp dp ≠
      (Hex.hex2raw (mem.drop sp) (mem.drop dp)).map fun r => (mem.take dp ++ r.1, r.2)) := by
  refine ⟨⟨bytes! "TWFuTWFu" ++ [0, 7, 7, 7], 10, 2, 0, rfl, ?_⟩, ⟨bytes! "Many" ++ [7, 7, 7, 7, 7], 0, 0, 4, rfl, ?_, ?_⟩,
    ⟨bytes! "a" ++ [7, 7], 0, 0, 1, rfl, ?_, ?_⟩, ⟨bytes! "abc" ++ [0, 7], 1, 0, rfl, ?_⟩, ⟨bytes! "abcd" ++ [0], 2, 0, rfl, ?_, ?_⟩⟩
  all_goals decide

/-- One place further up rc4 gives something else than the encrypted text, here from the second byte on. -/
example : rc4 (bytes! "Plaintext" ++ [0]) 1 0 9 (bytes! "Key") ≠ .ok (bytes! "P" ++ [0xBB, 0xF3, 0x16, 0xE8, 0xD9, 0x40, 0xAF, 0x0A, 0xD3]) ∧
    rc4 ([0] ++ bytes! "Plaintext") 0 1 9 (bytes! "Key") = .ok ([0xBB, 0xF3, 0x16, 0xE8, 0xD9, 0x40, 0xAF, 0x0A, 0xD3] ++ bytes! "t") := by
  decide +kernel

/-- The published examples, in place. -/
example : base64dec (bytes! "TWFuIQ==" ++ [0]) 0 0 9 = .ok (bytes! "Man!" ++ [0, 0, 0, 61, 0], 4) := by decide
example : hex2raw (bytes! "aab" ++ [0]) 0 0 = .ok ([0x0a, 0xab] ++ bytes! "b" ++ [0], 2) := by decide

end Ulz.Props

import Verif.Proofs.Parse
/-! # C08 - C12: number/text conversions -/
set_option linter.unusedSimpArgs false
set_option linter.unusedVariables false
namespace Ulz.Props
open Numbers Numbers.Spec

/-- The specification `dec` is the canonical numeral: digits below 10 that denote the number, without
    leading zero (except for 0 itself). -/
theorem dec_canonical (n : Nat) : ∃ ds : List Nat, dec n = ds.map (fun d => BitVec.ofNat 8 (48 + d)) ∧
    (∀ d ∈ ds, d < 10) ∧ ofDigits 10 ds = n ∧ (ds.head? = some 0 → n = 0 ∧ ds = [0]) ∧ ds ≠ [] := by
  refine ⟨digitsOf 10 n (by omega), rfl, digitsOf_lt _, ofDigits_digitsOf _ _ _, ?_, digitsOf_ne_nil _ _ _⟩
  intro h
  by_cases hn : n = 0
  · subst hn; exact ⟨rfl, by rw [digitsOf]; rfl⟩
  · obtain ⟨d, ds, he, h0⟩ := digitsOf_head 10 n (by omega) hn
    rw [he] at h; simp at h; exact absurd h h0

theorem dec_length_le {n k : Nat} : (dec n).length ≤ k + 1 ↔ n < 10 ^ (k + 1) := by
  simp only [dec, List.length_map]; exact digitsOf_length_le _ k n

/-! ### C08 -/

theorem symbol_dec {lower : Bool} (ds : List Nat) (h : ∀ d ∈ ds, d < 10) :
    ds.map (symbol lower) = ds.map (fun d => BitVec.ofNat 8 (48 + d)) := by
  apply List.map_congr_left
  intro d hd
  simp [symbol, h d hd]

theorem leadingZeros_digitsOf (b n : Nat) (hb : 2 ≤ b) (hn : n ≠ 0) : leadingZeros (digitsOf b n hb) = 0 := by
  obtain ⟨d, ds, he, h0⟩ := digitsOf_head b n hb hn
  rw [he]; simp [leadingZeros, h0]

theorem nts_unsigned (n : BitVec 64) (buffer : List Byte) (h : (dec n.toNat).length + 1 ≤ buffer.length) :
    numberToString n 10 buffer 0 0 = .ok (put buffer 0 (dec n.toNat ++ [0]), some 0) := by
  have hl : (dec n.toNat).length = (digitsOf 10 n.toNat (by omega)).length := by simp [dec]
  rw [numberToString_main n 10 buffer 0 0 (by omega) rfl (by omega) false (by simp) n.toNat
    (digitsOf 10 n.toNat (by omega)).length rfl rfl (by simp; omega)]
  rw [lowDigits_digitsOf, symbol_dec _ (digitsOf_lt _)]
  by_cases h0 : n.toNat = 0
  · rw [h0]
    have : digitsOf 10 0 (by omega) = [0] := by rw [digitsOf]; rfl
    simp [dec, this]
  · rw [leadingZeros_digitsOf _ _ _ h0]
    simp [h0, dec]

theorem nts_signed (n : BitVec 64) (buffer : List Byte) (h : (decInt n.toInt).length + 1 ≤ buffer.length) :
    numberToString n 10 buffer 0 NTS_SIGNED_TYPE = .ok (put buffer 0 (decInt n.toInt ++ [0]), some 0) := by
  have hi : n.toInt = if 2 * n.toNat < 2^64 then (n.toNat : Int) else n.toNat - 2^64 := BitVec.toInt_eq_toNat_cond n
  have hlt := n.isLt
  have hneg : (n.toInt < 0) ↔ 2^63 ≤ n.toNat := by rw [hi]; split <;> omega
  have hmag : n.toInt.natAbs = if 2^63 ≤ n.toNat then 2^64 - n.toNat else n.toNat := by
    rw [hi]; split <;> split <;> omega
  have hd : decInt n.toInt = (if decide (2^63 ≤ n.toNat) = true then [45] else []) ++ dec n.toInt.natAbs := by
    unfold decInt
    by_cases hc : 2^63 ≤ n.toNat
    · rw [if_pos (hneg.2 hc), if_pos (by simpa using hc)]; rfl
    · rw [if_neg (by rw [hneg]; exact hc), if_neg (by simpa using hc)]; rfl
  have hl : (dec n.toInt.natAbs).length = (digitsOf 10 n.toInt.natAbs (by omega)).length := by simp [dec]
  rw [numberToString_main n 10 buffer 0 NTS_SIGNED_TYPE (by omega) rfl (by omega) (decide (2^63 ≤ n.toNat))
    (by simp [NTS_SIGNED_TYPE]) n.toInt.natAbs
    (digitsOf 10 n.toInt.natAbs (by omega)).length (by rw [hmag]; simp) rfl
    (by rw [hd, List.length_append, hl] at h
        by_cases hc : decide (2^63 ≤ n.toNat) = true
        · rw [if_pos hc] at h ⊢; simp only [List.length_singleton] at h; omega
        · rw [if_neg hc] at h ⊢; simp only [List.length_nil] at h; omega)]
  rw [lowDigits_digitsOf, symbol_dec _ (digitsOf_lt _), hd]
  rw [if_neg (c := NTS_SIGNED_TYPE = 0) (by decide)]
  rfl

/-- **C08** `uint64ToString` writes exactly the canonical numeral and a terminator and returns the start
    of the buffer. -/
theorem uint64ToString_correct (n : BitVec 64) (buffer : List Byte)
    (h : (dec n.toNat).length + 1 ≤ buffer.length) :
    uint64ToString n buffer = .ok (put buffer 0 (dec n.toNat ++ [0]), some 0) := nts_unsigned n buffer h

/-- **C08** `int64ToString`, INT64_MIN included. -/
theorem int64ToString_correct (n : BitVec 64) (buffer : List Byte)
    (h : (decInt n.toInt).length + 1 ≤ buffer.length) :
    int64ToString n buffer = .ok (put buffer 0 (decInt n.toInt ++ [0]), some 0) := nts_signed n buffer h

/-- **C08** 32-bit variants. -/
theorem uintToString_correct (n : BitVec 32) (buffer : List Byte)
    (h : (dec n.toNat).length + 1 ≤ buffer.length) :
    uintToString n buffer = .ok (put buffer 0 (dec n.toNat ++ [0]), some 0) := by
  have e : (n.zeroExtend 64).toNat = n.toNat := by simp; have := n.isLt; omega
  have := nts_unsigned (n.zeroExtend 64) buffer (by rw [e]; exact h)
  rw [e] at this; exact this

theorem intToString_correct (n : BitVec 32) (buffer : List Byte)
    (h : (decInt n.toInt).length + 1 ≤ buffer.length) :
    intToString n buffer = .ok (put buffer 0 (decInt n.toInt ++ [0]), some 0) := by
  have e : (n.signExtend 64).toInt = n.toInt := BitVec.toInt_signExtend_of_le (by omega)
  have := nts_signed (n.signExtend 64) buffer (by rw [e]; exact h)
  rw [e] at this; exact this

/-- **C08** 21 bytes of buffer are always enough. -/
theorem decimal_fits (n : BitVec 64) : (dec n.toNat).length + 1 ≤ 21 ∧ (decInt n.toInt).length + 1 ≤ 21 := by
  have hlt := n.isLt
  have hi : n.toInt = if 2 * n.toNat < 2^64 then (n.toNat : Int) else n.toNat - 2^64 := BitVec.toInt_eq_toNat_cond n
  constructor
  · have := (dec_length_le (n := n.toNat) (k := 19)).2 (by omega); omega
  · unfold decInt
    have := (dec_length_le (n := n.toInt.natAbs) (k := 18)).2 (by rw [hi]; split <;> omega)
    split <;> simp <;> omega

example : uint64ToString 0 [9, 9, 9] = .ok ([48, 0, 9], some 0) := by decide +kernel
example : int64ToString (BitVec.ofInt 64 (-2^63)) (List.replicate 21 1) =
    .ok (bytes! "-9223372036854775808" ++ [0], some 0) := by decide +kernel
example : decInt (-120) = bytes! "-120" := by decide +kernel

/-! ### C09 -/

/-- **C09** For every even base from 2 to 62. `neg` says that the number is taken as signed and is
    negative, `mag` is its magnitude, `L` the number of digit characters (the given maximum, or exactly
    as many as the number needs). The buffer receives the sign, `L` digits that denote `mag` modulo
    `base^L`, and the terminator, and nothing else changes. The returned pointer is the start of the
    buffer, except without any flag, where leading zeros are skipped (all but the last digit for the
    number 0). -/
theorem numberToString_correct (number : BitVec 64) (base : Nat) (buffer : List Byte) (maxlen flags : Nat)
    (hb : 2 ≤ base) (hev : base % 2 = 0) (hb' : base ≤ 62)
    (neg : Bool) (hneg : neg = ((flags &&& 2 ≠ 0) && decide (2^63 ≤ number.toNat)))
    (mag L : Nat) (hmag : mag = if neg then 2^64 - number.toNat else number.toNat)
    (hL : L = if maxlen = 0 then (digitsOf base mag hb).length else maxlen)
    (hbuf : (if neg then 1 else 0) + L + 1 ≤ buffer.length) :
    ∃ ds : List Nat, ds.length = L ∧ (∀ d ∈ ds, d < base) ∧ ofDigits base ds = mag % base ^ L ∧
      (maxlen = 0 → ofDigits base ds = mag ∧ ds = digitsOf base mag hb) ∧
      numberToString number base buffer maxlen flags =
        .ok (put buffer 0 ((if neg then [45] else []) ++
              ds.map (symbol (flags &&& 4 ≠ 0 && decide (base ≤ 36))) ++ [0]),
            some (if flags = 0 then (if mag = 0 then L - 1 else (ds.takeWhile (· = 0)).length) else 0)) := by
  refine ⟨lowDigits base L mag, lowDigits_length _ _ _, lowDigits_lt hb _ _, ofDigits_lowDigits _ hb _ _, ?_, ?_⟩
  · intro h0
    rw [if_pos h0] at hL
    subst hL
    rw [lowDigits_digitsOf]
    exact ⟨ofDigits_digitsOf _ _ _, rfl⟩
  · exact numberToString_main number base buffer maxlen flags hb hev hb' neg hneg mag L hmag hL hbuf

example : numberToString 255 16 (List.replicate 8 9) 4 5 = .ok (bytes! "00ff" ++ [0, 9, 9, 9], some 0) := by
  decide +kernel
example : numberToString 61 62 (List.replicate 3 9) 0 0 = .ok (bytes! "z" ++ [0, 9], some 0) := by
  decide +kernel

/-- **C09** Odd bases and bases above 62: NULL, nothing written. -/
theorem numberToString_rejects (number : BitVec 64) (base : Nat) (buffer : List Byte) (maxlen flags : Nat)
    (h : base % 2 = 1 ∨ 62 < base) :
    numberToString number base buffer maxlen flags = .ok (buffer, none) := by
  unfold numberToString
  rw [if_pos (by have : conv_cypher.length = 62 := by decide
                 omega)]
  rfl

example : numberToString 5 3 [] 0 0 = .ok ([], none) := by decide

theorem twos_complement_ne_zero (number : BitVec 64) (h : number ≠ 0) : (~~~number + 1) ≠ 0 := by
  intro h2
  apply h
  have h3 : -number = 0 := by rw [BitVec.neg_eq_not_add]; exact h2
  simpa using h3

/-- **C09** Base 0 divides by zero for every non-zero number. -/
theorem numberToString_base0 (number : BitVec 64) (buffer : List Byte) (maxlen flags : Nat)
    (h : number ≠ 0) (hbuf : maxlen + 2 ≤ buffer.length) :
    numberToString number 0 buffer maxlen flags = .error .divZero := by
  unfold numberToString
  rw [if_neg (by simp)]
  simp only
  rw [dif_neg (by omega)]
  generalize (decide (flags &&& NTS_SIGNED_TYPE ≠ 0) && (number >>> 63 == 1)) = hs
  have hne : ¬ ((if hs = true then ~~~number + 1 else number) = 0) := by
    cases hs with
    | false => exact h
    | true => exact twos_complement_ne_zero number h
  rw [if_neg hne]
  split
  · rfl
  · have hfill := fillLoop_put buffer (if hs = true then 1 else 0) maxlen 0 [] rfl (by split <;> omega)
    rw [put_nil, List.nil_append] at hfill
    rw [hfill]
    simp only [ok_bind]
    rw [wr_put (by simp) (by split <;> omega)]
    rfl

example : numberToString 5 0 (List.replicate 9 1) 0 0 = .error .divZero := by decide

/-- **C09**, a defect: without flags and with a maximum length, a non-zero number whose low digits are
    all zero yields the empty string (the pointer to the terminator). -/
theorem numberToString_loses_zeros (number : BitVec 64) (base : Nat) (buffer : List Byte) (maxlen : Nat)
    (hb : 2 ≤ base) (hev : base % 2 = 0) (hb' : base ≤ 62) (hm : maxlen ≠ 0) (hn : number ≠ 0)
    (hz : number.toNat % base ^ maxlen = 0) (hbuf : maxlen + 1 ≤ buffer.length) :
    ∃ b, numberToString number base buffer maxlen 0 = .ok (b, some maxlen) ∧ b[maxlen]? = some 0 := by
  have h0 : number.toNat ≠ 0 := by
    intro h; exact hn (BitVec.eq_of_toNat_eq (by simpa using h))
  have := numberToString_main number base buffer maxlen 0 hb hev hb' false (by simp) number.toNat maxlen
    rfl (by rw [if_neg hm]) (by simpa using hbuf)
  have hall : ∀ (L : Nat) (n : Nat), n % base ^ L = 0 → lowDigits base L n = List.replicate L 0 := by
    intro L
    induction L with
    | zero => intro n _; rfl
    | succ L ih =>
      intro n h
      have hdvd : base ^ L * base ∣ n := by rw [← Nat.pow_succ]; exact Nat.dvd_of_mod_eq_zero h
      obtain ⟨q, rfl⟩ := hdvd
      have e : base ^ L * base * q = base * (base ^ L * q) := by
        rw [Nat.mul_comm (base ^ L) base, Nat.mul_assoc]
      simp only [lowDigits, e]
      rw [Nat.mul_div_cancel_left _ (by omega), Nat.mul_mod_right, ih _ (Nat.mul_mod_right _ _)]
      simp [List.replicate_succ']
  rw [this, hall maxlen _ hz]
  have hlz : leadingZeros (List.replicate maxlen 0) = maxlen := by simp [leadingZeros]
  rw [if_pos rfl, if_neg h0, hlz]
  exact ⟨_, rfl, by simp [put]⟩

example : numberToString 16 16 [9, 9, 9] 1 0 = .ok ([48, 0, 9], some 1) := by decide +kernel

/-! ### C10, C11 -/

theorem write_dec (A b : List Byte) (n : Nat) (len : Int) (hlen : len = (dec n).length)
    (h : (dec n).length + 1 ≤ b.length) (start : Int) (hs : start = A.length) :
    (do let buffer ← wrInt (A ++ b) (start + len) 0
        digitLoop buffer start len n) = .ok (A ++ put b 0 (dec n ++ [0])) := by
  rw [wrInt_ok (k := A.length + (dec n).length) (by omega)]
  have hw : wr (A ++ b) (A.length + (dec n).length) 0 =
      .ok (A ++ b.take (dec n).length ++ 0 :: b.drop ((dec n).length + 1)) := by
    have hb := split_at b (dec n).length (by omega)
    have e : A ++ b = A ++ b.take (dec n).length ++ b[(dec n).length] :: b.drop ((dec n).length + 1) := by
      rw [List.append_assoc, ← hb]
    rw [e, wr_append (by simp; omega)]
  rw [hw]
  simp only [ok_bind]
  rw [digitLoop_ok A start hs n (b.take (dec n).length) _ len (by simp; omega) (by simp; omega)]
  simp [put_zero]

/-- **C10** `utoa` is right for every number up to 3294967296 ... -/
theorem utoa_correct (n : BitVec 32) (buffer : List Byte) (hn : n.toNat ≤ 3294967296)
    (h : (dec n.toNat).length + 1 ≤ buffer.length) :
    utoa n buffer = .ok (put buffer 0 (dec n.toNat ++ [0])) := by
  have hi : n.toInt = if 2 * n.toNat < 2^32 then (n.toNat : Int) else n.toNat - 2^32 := BitVec.toInt_eq_toNat_cond n
  have hlt := n.isLt
  unfold utoa
  have hlen : lenLoop n.toInt 0 = (dec n.toNat).length := by
    rw [lenLoop_eq, Int.zero_add]
    congr 1
    by_cases hc : 2 * n.toNat < 2^32
    · rw [hi, if_pos hc]; rfl
    · rw [hi, if_neg hc]
      have hx : ∀ m : Nat, 10^9 ≤ m → m < 10^10 → (dec m).length = 10 := by
        intro m h1 h2
        have := (dec_length_le (n := m) (k := 9)).2 h2
        have h3 := dec_length_le (n := m) (k := 8)
        have : ¬ (dec m).length ≤ 9 := by rw [h3]; omega
        omega
      rw [hx _ (by omega) (by omega), hx _ (by omega) (by omega)]
  have := write_dec [] buffer n.toNat _ hlen h 0 rfl
  simpa using this

/-- **C10** ... and writes before the start of the buffer for every larger one. -/
theorem utoa_underrun (n : BitVec 32) (buffer : List Byte) (hn : 3294967296 < n.toNat)
    (h : 11 ≤ buffer.length) : utoa n buffer = .error .oobWrite := by
  have hi : n.toInt = if 2 * n.toNat < 2^32 then (n.toNat : Int) else n.toNat - 2^32 := BitVec.toInt_eq_toNat_cond n
  have hlt := n.isLt
  rw [if_neg (by omega)] at hi
  unfold utoa
  have h9 := (dec_length_le (n := n.toInt.natAbs) (k := 8)).2 (by rw [hi]; omega)
  have hlen : lenLoop n.toInt 0 = (dec n.toInt.natAbs).length := by rw [lenLoop_eq]; omega
  have h10 : ¬ (dec n.toNat).length ≤ 9 := by rw [dec_length_le (k := 8)]; omega
  simp only [hlen]
  rw [wrInt_ok (k := (dec n.toInt.natAbs).length) (by omega), wr_ok (by omega)]
  simp only [ok_bind]
  exact digitLoop_short n.toNat _ _ (by omega) (by simp; omega) (by omega)

/-- **C10** 11 bytes are enough. -/
theorem utoa_fits (n : BitVec 32) : (dec n.toNat).length + 1 ≤ 11 := by
  have := n.isLt
  have := (dec_length_le (n := n.toNat) (k := 9)).2 (by omega); omega

example : utoa 3294967296 (List.replicate 12 7) = .ok (bytes! "3294967296" ++ [0, 7]) := by decide +kernel
example : utoa 3294967297 (List.replicate 12 7) = .error .oobWrite := by decide +kernel

/-- **C11** `itoa` is right for every int but INT_MIN ... -/
theorem itoa_correct (n : BitVec 32) (buffer : List Byte) (hn : n.toInt ≠ -2^31)
    (h : (decInt n.toInt).length + 1 ≤ buffer.length) :
    itoa n buffer = .ok (put buffer 0 (decInt n.toInt ++ [0])) := by
  unfold itoa
  simp only
  by_cases hneg : n.toInt < 0
  · rw [if_pos hneg, if_neg hn]
    have hd : decInt n.toInt = 45 :: dec n.toInt.natAbs := by simp [decInt, hneg]
    rw [hd] at h ⊢
    match buffer, h with
    | x :: b, h =>
      simp only [List.length_cons] at h
      have e : (-n.toInt).toNat = n.toInt.natAbs := by omega
      have := write_dec [ch '-'] b (-n.toInt).toNat (lenLoop (-n.toInt) 0)
        (by rw [lenLoop_eq, e, Int.natAbs_neg]; omega) (by rw [e]; omega) 1 rfl
      rw [show wrInt (x :: b) 0 (ch '-') = .ok (ch '-' :: b) from by simp [wrInt, wr]]
      simp only [List.cons_append, List.nil_append] at this
      simp only [ok_bind, pure_bind] at this ⊢
      rw [this, e]
      simp [put_zero, show ch '-' = (45 : Byte) from by decide]
  · rw [if_neg hneg]
    have hd : decInt n.toInt = dec n.toInt.natAbs := by simp [decInt, hneg]
    rw [hd] at h ⊢
    have e : n.toInt.toNat = n.toInt.natAbs := by omega
    have := write_dec [] buffer n.toInt.toNat (lenLoop n.toInt 0)
        (by rw [lenLoop_eq, e]; omega) (by rw [e]; omega) 0 rfl
    rw [e] at this ⊢
    simpa using this

/-- **C11** ... which overflows. -/
theorem itoa_int_min (buffer : List Byte) : itoa (BitVec.intMin 32) buffer = .error .overflow := by
  have e : (BitVec.intMin 32).toInt = -2^31 := by decide
  simp [itoa, e]

/-- **C11** 12 bytes are enough. -/
theorem itoa_fits (n : BitVec 32) : (decInt n.toInt).length + 1 ≤ 12 := by
  have hi : n.toInt = if 2 * n.toNat < 2^32 then (n.toNat : Int) else n.toNat - 2^32 := BitVec.toInt_eq_toNat_cond n
  have hlt := n.isLt
  have := (dec_length_le (n := n.toInt.natAbs) (k := 9)).2 (by rw [hi]; split <;> omega)
  unfold decInt; split <;> simp <;> omega

example : itoa (BitVec.ofInt 32 (-2147483647)) (List.replicate 13 7) = .ok (bytes! "-2147483647" ++ [0, 7]) := by
  decide +kernel

/-! ### C12 -/

theorem dec_head_ne_minus (n : Nat) (rest : List Byte) :
    ∃ c, rd (dec n ++ rest) 0 = .ok c ∧ c ≠ ch '-' := by
  have hlt := digitsOf_lt (b := 10) (n := n) (by omega)
  unfold dec
  cases hd : digitsOf 10 n (by omega) with
  | nil => exact absurd hd (digitsOf_ne_nil _ _ _)
  | cons d ds =>
    rw [hd] at hlt
    exact ⟨_, rfl, digit_ne_minus (hlt d (by simp))⟩

theorem dec_len_pos (n : Nat) : 0 < (dec n).length := by
  simp [dec, digitsOf_length_pos]

theorem strtoint64_dec (n : Nat) (rest : List Byte) (h : n < 10^18) :
    strtoint64 (dec n ++ rest) (dec n).length = .ok (n : Int) := by
  obtain ⟨c, hc, hne⟩ := dec_head_ne_minus n rest
  have hp := dec_len_pos n
  have hl := (dec_length_le (n := n) (k := 17)).2 h
  have h' : (digitsOf 10 n (by omega)).length = (dec n).length := by simp [dec]
  unfold strtoint64
  rw [if_neg (by omega), hc]
  simp only [ok_bind]
  rw [if_neg hne]
  have := parse64_ok [] rest (dec n).length (digitsOf 10 n (by omega)) 0 0 h' (digitsOf_lt _) (by omega)
    (by omega) (by decide)
  rw [ofDigits_digitsOf] at this
  simpa [dec] using this

theorem strtoint64_neg (n : Nat) (rest : List Byte) (h : n < 10^18) :
    strtoint64 (45 :: dec n ++ rest) (dec n).length.succ = .ok (-n : Int) := by
  have hl := (dec_length_le (n := n) (k := 17)).2 h
  have h' : (digitsOf 10 n (by omega)).length = (dec n).length := by simp [dec]
  unfold strtoint64
  rw [if_neg (by omega)]
  simp only [List.cons_append, rd_cons_zero, ok_bind]
  rw [if_pos (by decide)]
  have := parse64_ok [45] rest (dec n).length (digitsOf 10 n (by omega)) 0 0 h' (digitsOf_lt _) (by omega)
    (by omega) (by decide)
  rw [ofDigits_digitsOf] at this
  have e : [45] ++ List.map (fun d => BitVec.ofNat 8 (48 + d)) (digitsOf 10 n (by omega)) ++ rest = 45 :: (dec n ++ rest) := by
    simp [dec]
  rw [e] at this
  simp only [Nat.succ_eq_add_one, Nat.add_sub_cancel]
  have h1 : ([45] : List Byte).length = 1 := rfl
  have h2 : (10:Int)^0 = 1 := Int.pow_zero 10
  rw [h1, h2] at this
  rw [this]
  simp only [ok_bind, Int.mul_one, Int.zero_add]
  exact i64_ok (by omega) (by omega)

/-- **C12** `strtoint64` undoes `int64ToString` for every number of at most 18 digits (whatever follows
    the text in the buffer). -/
theorem strtoint64_roundtrip (n : BitVec 64) (buffer : List Byte) (hb : 21 ≤ buffer.length)
    (h : n.toInt.natAbs < 10^18) :
    ∃ b, int64ToString n buffer = .ok (b, some 0) ∧
      strtoint64 b (cstr b).length = .ok n.toInt := by
  refine ⟨_, int64ToString_correct n buffer (by have := (decimal_fits n).2; omega), ?_⟩
  have hnz : ∀ m, ∀ c ∈ dec m, c ≠ 0 := by
    intro m c hc
    simp only [dec, List.mem_map] at hc
    obtain ⟨d, hd, rfl⟩ := hc
    have := digitsOf_lt (b := 10) (n := m) (by omega) d hd
    intro he
    have := congrArg BitVec.toNat he
    simp at this; omega
  have hc : ∀ (s t : List Byte), (∀ c ∈ s, c ≠ 0) → cstr (s ++ [0] ++ t) = s := by
    intro s t hs
    unfold cstr
    rw [List.append_assoc, List.takeWhile_append_of_pos (by intro a ha; simpa using hs a ha)]
    simp
  rw [put_zero]
  unfold decInt
  by_cases hneg : n.toInt < 0
  · simp only [if_pos hneg]
    rw [hc _ _ (by intro c hm; rcases List.mem_cons.1 hm with rfl | hm
                   · decide
                   · exact hnz _ c hm)]
    rw [List.append_assoc]
    have := strtoint64_neg n.toInt.natAbs ([0] ++ List.drop ((45 :: dec n.toInt.natAbs) ++ [0]).length buffer) h
    rw [List.length_cons, this]
    congr 1; omega
  · simp only [if_neg hneg]
    rw [hc _ _ (hnz _), List.append_assoc, strtoint64_dec _ _ h]
    congr 1; omega

/-- **C12** With 19 digits (after an optional sign) or more `strtoint64` always executes a signed
    overflow, whatever the digits are. -/
theorem strtoint64_overflow (ds : List Nat) (rest : List Byte) (hd : ∀ d ∈ ds, d < 10) (hl : 19 ≤ ds.length) :
    strtoint64 (ds.map (fun d => BitVec.ofNat 8 (48 + d)) ++ rest) ds.length = .error .overflow ∧
    strtoint64 (45 :: ds.map (fun d => BitVec.ofNat 8 (48 + d)) ++ rest) (ds.length + 1) = .error .overflow := by
  constructor
  · unfold strtoint64
    rw [if_neg (by omega)]
    have hc : ∃ c, rd (ds.map (fun d => BitVec.ofNat 8 (48 + d)) ++ rest) 0 = .ok c ∧ c ≠ ch '-' := by
      match ds, hl, hd with
      | d :: ds, hl, hd => exact ⟨_, rfl, digit_ne_minus (hd d (by simp))⟩
    obtain ⟨c, hc, hne⟩ := hc
    rw [hc]
    simp only [ok_bind]
    rw [if_neg hne]
    have := parse64_overflow [] rest ds.length ds 0 0 rfl hd (by omega) (by omega) (by omega) (by decide)
    simpa using this
  · unfold strtoint64
    rw [if_neg (by omega)]
    simp only [List.cons_append, rd_cons_zero, ok_bind]
    rw [if_pos (by decide)]
    have := parse64_overflow [45] rest ds.length ds 0 0 rfl hd (by omega) (by omega) (by omega) (by decide)
    have h1 : ([45] : List Byte).length = 1 := rfl
    have h2 : (10:Int)^0 = 1 := Int.pow_zero 10
    rw [h1, h2] at this
    rw [Nat.add_sub_cancel]
    have e : [45] ++ List.map (fun d => BitVec.ofNat 8 (48 + d)) ds ++ rest =
      45 :: (List.map (fun d => BitVec.ofNat 8 (48 + d)) ds ++ rest) := by simp
    rw [e] at this
    rw [this]; rfl

example : strtoint64 (bytes! "-123x") 4 = .ok (-123) := by decide
example : strtoint64 (bytes! "0000000000000000001") 19 = .error .overflow := by decide

theorem strtoint_dec (n : Nat) (rest : List Byte) (h : n < 2^31) :
    strtoint (dec n ++ rest) (dec n).length = .ok (n : Int) := by
  obtain ⟨c, hc, hne⟩ := dec_head_ne_minus n rest
  have hp := dec_len_pos n
  have hl := (dec_length_le (n := n) (k := 9)).2 (by omega)
  have h' : (digitsOf 10 n (by omega)).length = (dec n).length := by simp [dec]
  unfold strtoint
  rw [if_neg (by omega), hc]
  simp only [ok_bind]
  rw [if_neg hne]
  have := parse32_ok [] rest (dec n).length (digitsOf 10 n (by omega)) 0 0 h' (digitsOf_lt _) (by omega)
  rw [ofDigits_digitsOf] at this
  have e : ((0:Int) + n * 10^0).bmod (2^32) = (n : Int) := by
    rw [Int.zero_add, Int.pow_zero, Int.mul_one]; exact bmod_small (by omega) (by omega)
  rw [e] at this
  simpa [dec] using this

theorem strtoint_neg (n : Nat) (rest : List Byte) (h : n ≤ 2^31) :
    strtoint (45 :: dec n ++ rest) (dec n).length.succ = if n = 2^31 then .error .overflow else .ok (-n : Int) := by
  have hl := (dec_length_le (n := n) (k := 9)).2 (by omega)
  have h' : (digitsOf 10 n (by omega)).length = (dec n).length := by simp [dec]
  unfold strtoint
  rw [if_neg (by omega)]
  simp only [List.cons_append, rd_cons_zero, ok_bind]
  rw [if_pos (by decide)]
  have := parse32_ok [45] rest (dec n).length (digitsOf 10 n (by omega)) 0 0 h' (digitsOf_lt _) (by omega)
  rw [ofDigits_digitsOf] at this
  have e : [45] ++ List.map (fun d => BitVec.ofNat 8 (48 + d)) (digitsOf 10 n (by omega)) ++ rest = 45 :: (dec n ++ rest) := by
    simp [dec]
  rw [e] at this
  simp only [Nat.succ_eq_add_one, Nat.add_sub_cancel]
  have h1 : ([45] : List Byte).length = 1 := rfl
  have h2 : (10:Int)^0 = 1 := Int.pow_zero 10
  have h3 : Int.bmod 0 (2^32) = 0 := by decide
  rw [h1, h2, h3, Int.zero_add, Int.mul_one] at this
  rw [this]
  apply ok_bind'
  by_cases hm : n = 2^31
  · have hb : (n : Int).bmod (2^32) = -2147483648 := by
      have : (n : Int) = 2147483648 := by omega
      rw [this]; decide
    rw [if_pos hb, if_pos hm]
  · rw [bmod_small (by omega) (by omega), if_neg (by omega), if_neg hm]
    rfl

/-- **C12** `strtoint` undoes `intToString` for every int but INT_MIN, for which it overflows. -/
theorem strtoint_roundtrip (n : BitVec 32) (rest : List Byte) :
    strtoint (decInt n.toInt ++ rest) (decInt n.toInt).length =
      if n.toInt = -2^31 then .error .overflow else .ok n.toInt := by
  have hi : n.toInt = if 2 * n.toNat < 2^32 then (n.toNat : Int) else n.toNat - 2^32 := BitVec.toInt_eq_toNat_cond n
  have hlt := n.isLt
  have hlo : -2^31 ≤ n.toInt := by rw [hi]; split <;> omega
  have hhi : n.toInt < 2^31 := by rw [hi]; split <;> omega
  unfold decInt
  by_cases hneg : n.toInt < 0
  · simp only [if_pos hneg]
    have := strtoint_neg n.toInt.natAbs rest (by omega)
    rw [List.length_cons, this]
    by_cases hm : n.toInt = -2^31
    · rw [if_pos (by omega), if_pos hm]
    · rw [if_neg (by omega), if_neg hm]; congr 1; omega
  · simp only [if_neg hneg]
    rw [strtoint_dec _ _ (by omega), if_neg (by omega)]; congr 1; omega

example : intToString (BitVec.ofInt 32 (-17)) (List.replicate 12 3) =
    .ok (bytes! "-17" ++ 0 :: List.replicate 8 3, some 0) ∧
    strtoint (bytes! "-17" ++ [0]) 3 = .ok (-17) := by decide +kernel
example : strtoint (bytes! "-2147483648") 11 = .error .overflow := by decide

theorem fillLoop_any (r : Nat) : ∀ (n i : Nat) (b : List Byte),
    fillLoop b r n i = .error .oobWrite ∨ ∃ b', fillLoop b r n i = .ok b' ∧ b'.length = b.length
  | 0, _, b => .inr ⟨b, rfl, rfl⟩
  | n + 1, i, b => by
    rw [fillLoop]
    by_cases h : r + i < b.length
    · rw [wr_ok h, ok_bind]
      have := fillLoop_any r n (i + 1) (b.set (r + i) (ch '0'))
      rwa [List.length_set] at this
    · rw [show wr b (r + i) (ch '0') = .error .oobWrite by simp [wr, h]]
      exact .inl rfl

/-- **C08**, **C09** The room is needed: with one byte less than sign, digits and terminator take, `numberToString` writes behind the
    buffer. -/
theorem numberToString_needs_room (number : BitVec 64) (base : Nat) (buffer : List Byte) (maxlen flags : Nat)
    (hb : 2 ≤ base) (hev : base % 2 = 0) (hb' : base ≤ 62)
    (neg : Bool) (hneg : neg = ((flags &&& 2 ≠ 0) && decide (2^63 ≤ number.toNat)))
    (mag L : Nat) (hmag : mag = if neg then 2^64 - number.toNat else number.toNat)
    (hL : L = if maxlen = 0 then (digitsOf base mag hb).length else maxlen)
    (hbuf : buffer.length < (if neg then 1 else 0) + L + 1) :
    numberToString number base buffer maxlen flags = .error .oobWrite := by
  unfold numberToString
  rw [if_neg (by have : conv_cypher.length = 62 := by decide
                 omega)]
  have hsign : (decide (flags &&& NTS_SIGNED_TYPE ≠ 0) && (number >>> 63 == 1)) = neg := by
    rw [hneg]
    congr 1
    have := number.isLt
    rw [Bool.eq_iff_iff, beq_iff_eq, decide_eq_true_iff]
    constructor
    · intro h
      have := congrArg BitVec.toNat h
      simp [BitVec.toNat_ushiftRight, Nat.shiftRight_eq_div_pow] at this
      omega
    · intro h
      apply BitVec.eq_of_toNat_eq
      simp [BitVec.toNat_ushiftRight, Nat.shiftRight_eq_div_pow]
      omega
  simp only [hsign]
  rw [dif_pos hb]
  have hm : (if neg then ~~~number + 1 else number).toNat = mag := by
    rw [hmag]
    cases neg with
    | false => rfl
    | true =>
      have h1 := hneg.symm
      simp only [Bool.and_eq_true, decide_eq_true_eq] at h1
      rw [if_pos rfl, if_pos rfl, show (~~~number + 1) = -number from (BitVec.neg_eq_not_add number).symm, BitVec.toNat_neg]
      have := number.isLt
      omega
  rw [hm, countLoop_eq, ← hL]
  have hwr : ∀ b : List Byte, b.length = buffer.length → wr b ((if neg then 1 else 0) + L) 0 = .error .oobWrite := by
    intro b hb
    have : ¬ (if neg then 1 else 0) + L < b.length := by omega
    simp only [wr, this, if_false]
  rcases fillLoop_any (if neg then 1 else 0) L 0 buffer with h | ⟨b, h, hl⟩ <;> rw [h]
  · rfl
  · rw [ok_bind, hwr b hl]
    rfl

/-- **C08** In particular the decimal printers work exactly if the buffer has room for numeral and terminator. -/
theorem decimal_needs_room (n : BitVec 64) (m : BitVec 32) (buffer : List Byte) :
    ((∃ r, uint64ToString n buffer = .ok r) ↔ (dec n.toNat).length + 1 ≤ buffer.length) ∧
    ((∃ r, int64ToString n buffer = .ok r) ↔ (decInt n.toInt).length + 1 ≤ buffer.length) ∧
    ((∃ r, uintToString m buffer = .ok r) ↔ (dec m.toNat).length + 1 ≤ buffer.length) ∧
    ((∃ r, intToString m buffer = .ok r) ↔ (decInt m.toInt).length + 1 ≤ buffer.length) := by
  have hu : ∀ n : BitVec 64, ¬ (dec n.toNat).length + 1 ≤ buffer.length → numberToString n 10 buffer 0 0 = .error .oobWrite := by
    intro n h
    refine numberToString_needs_room n 10 buffer 0 0 (by omega) rfl (by omega) false (by simp) n.toNat _ rfl rfl ?_
    simp only [dec, List.length_map] at h
    simp
    omega
  have hs : ∀ n : BitVec 64, ¬ (decInt n.toInt).length + 1 ≤ buffer.length →
      numberToString n 10 buffer 0 NTS_SIGNED_TYPE = .error .oobWrite := by
    intro n h
    have hi : n.toInt = if 2 * n.toNat < 2^64 then (n.toNat : Int) else n.toNat - 2^64 := BitVec.toInt_eq_toNat_cond n
    have hlt := n.isLt
    by_cases hc : 2^63 ≤ n.toNat
    · have hn : n.toInt < 0 := by rw [hi, if_neg (by omega)]; omega
      have ha : n.toInt.natAbs = 2^64 - n.toNat := by rw [hi, if_neg (by omega)]; omega
      rw [decInt, if_pos hn, ha] at h
      refine numberToString_needs_room n 10 buffer 0 2 (by omega) rfl (by omega) true (by simpa using hc) (2^64 - n.toNat) _ rfl rfl ?_
      simp only [dec, List.length_map, List.length_cons, if_true] at h ⊢
      omega
    · have hn : ¬ n.toInt < 0 := by rw [hi, if_pos (by omega)]; omega
      have ha : n.toInt.natAbs = n.toNat := by rw [hi, if_pos (by omega)]; omega
      rw [decInt, if_neg hn, ha] at h
      refine numberToString_needs_room n 10 buffer 0 2 (by omega) rfl (by omega) false (by simpa using hc) n.toNat _ rfl rfl ?_
      simp only [dec, List.length_map, if_true, Bool.false_eq_true, if_false] at h ⊢
      omega
  refine ⟨⟨fun ⟨r, h⟩ => ?_, fun h => ⟨_, uint64ToString_correct n buffer h⟩⟩, ⟨fun ⟨r, h⟩ => ?_, fun h => ⟨_, int64ToString_correct n buffer h⟩⟩,
    ⟨fun ⟨r, h⟩ => ?_, fun h => ⟨_, uintToString_correct m buffer h⟩⟩, ⟨fun ⟨r, h⟩ => ?_, fun h => ⟨_, intToString_correct m buffer h⟩⟩⟩
  · refine Decidable.byContradiction fun hn => ?_
    rw [uint64ToString, hu n hn] at h
    exact absurd h (by simp)
  · refine Decidable.byContradiction fun hn => ?_
    rw [int64ToString, hs n hn] at h
    exact absurd h (by simp)
  · refine Decidable.byContradiction fun hn => ?_
    rw [uintToString, hu _ (by simpa [BitVec.toNat_setWidth, Nat.mod_eq_of_lt (show m.toNat < 2^64 by have := m.isLt; omega)] using hn)] at h
    exact absurd h (by simp)
  · refine Decidable.byContradiction fun hn => ?_
    rw [intToString, hs _ (by rwa [BitVec.toInt_signExtend_of_le (by decide)])] at h
    exact absurd h (by simp)

/-- **C10**, **C11** The same for `utoa` and `itoa`: a buffer that is too short for numeral and terminator is overrun (`utoa` within
    its range). -/
theorem itoa_needs_room (n : BitVec 32) (buffer : List Byte) :
    (n.toNat ≤ 3294967296 → ((∃ r, utoa n buffer = .ok r) ↔ (dec n.toNat).length + 1 ≤ buffer.length)) ∧
    (n.toInt ≠ -2^31 → ((∃ r, itoa n buffer = .ok r) ↔ (decInt n.toInt).length + 1 ≤ buffer.length)) := by
  have hw : ∀ (b : List Byte) (k : Nat), b.length ≤ k → ∀ v, wrInt b (k : Int) v = .error .oobWrite := by
    intro b k h v
    rw [wrInt_ok (k := k) rfl]
    have : ¬ k < b.length := by omega
    simp only [wr, this, if_false]
  have hi : n.toInt = if 2 * n.toNat < 2^32 then (n.toNat : Int) else n.toNat - 2^32 := BitVec.toInt_eq_toNat_cond n
  have hlt := n.isLt
  refine ⟨fun hn => ⟨fun ⟨r, h⟩ => Decidable.byContradiction fun hs => ?_, fun h => ⟨_, utoa_correct n buffer hn h⟩⟩,
    fun hn => ⟨fun ⟨r, h⟩ => Decidable.byContradiction fun hs => ?_, fun h => ⟨_, itoa_correct n buffer hn h⟩⟩⟩
  · have hlen : lenLoop n.toInt 0 = (dec n.toNat).length := by
      rw [lenLoop_eq, Int.zero_add]
      congr 1
      by_cases hc : 2 * n.toNat < 2^32
      · rw [hi, if_pos hc]; rfl
      · rw [hi, if_neg hc]
        have hx : ∀ m : Nat, 10^9 ≤ m → m < 10^10 → (dec m).length = 10 := by
          intro m h1 h2
          have := (dec_length_le (n := m) (k := 9)).2 h2
          have h3 := dec_length_le (n := m) (k := 8)
          have : ¬ (dec m).length ≤ 9 := by rw [h3]; omega
          omega
        rw [hx _ (by omega) (by omega), hx _ (by omega) (by omega)]
    unfold utoa at h
    simp only at h
    rw [hlen, Int.zero_add, hw _ _ (by omega)] at h
    exact absurd h (by simp [error_bind])
  · unfold itoa at h
    simp only at h
    by_cases hneg : n.toInt < 0
    · rw [if_pos hneg, if_neg hn] at h
      rw [decInt, if_pos hneg, List.length_cons] at hs
      match buffer, hs with
      | [], hs => exact absurd h (by rw [show (0:Int) = ((0:Nat):Int) from rfl, hw _ _ (by simp)]; simp [error_bind])
      | x :: b, hs =>
        rw [show wrInt (x :: b) 0 (ch '-') = .ok (ch '-' :: b) from by simp [wrInt, wr]] at h
        have e : (1 : Int) + lenLoop (-n.toInt) 0 = ((1 + (dec n.toInt.natAbs).length : Nat) : Int) := by
          rw [lenLoop_eq, Int.natAbs_neg]; omega
        simp only [ok_bind] at h
        rw [e, hw _ _ (by simp only [List.length_cons] at hs ⊢; omega)] at h
        exact absurd h (by simp [error_bind])
    · rw [if_neg hneg] at h
      rw [decInt, if_neg hneg] at hs
      have e : (0 : Int) + lenLoop n.toInt 0 = ((dec n.toInt.natAbs).length : Int) := by
        rw [lenLoop_eq]; omega
      rw [e, hw _ _ (by omega)] at h
      exact absurd h (by simp [error_bind])

example : uint64ToString 1234 (List.replicate 4 7) = .error .oobWrite ∧ utoa 1234 (List.replicate 4 7) = .error .oobWrite := by decide +kernel

end Ulz.Props

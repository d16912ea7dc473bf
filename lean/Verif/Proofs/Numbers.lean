import Verif.Model.Numbers
import Verif.Spec.Numbers
import Verif.Proofs.Base
set_option linter.unusedSimpArgs false
set_option linter.unusedVariables false
namespace Ulz.Numbers
open Spec

/-! ### Digits -/

theorem digitsOf_lt {b n : Nat} (hb : 2 ≤ b) : ∀ d ∈ digitsOf b n hb, d < b := by
  induction n using Nat.strongRecOn with
  | _ n ih =>
    rw [digitsOf]
    split
    · rename_i h; simpa using h
    · rename_i h
      intro d hd
      rcases List.mem_append.1 hd with hd | hd
      · exact ih (n / b) (Nat.div_lt_self (by omega) hb) d hd
      · simp at hd; subst hd; exact Nat.mod_lt _ (by omega)

theorem ofDigits_append (b : Nat) (xs : List Nat) (d : Nat) : ofDigits b (xs ++ [d]) = ofDigits b xs * b + d := by
  simp [ofDigits]

theorem ofDigits_digitsOf (b n : Nat) (hb : 2 ≤ b) : ofDigits b (digitsOf b n hb) = n := by
  induction n using Nat.strongRecOn with
  | _ n ih =>
    rw [digitsOf]
    split
    · simp [ofDigits]
    · rw [ofDigits_append, ih (n / b) (Nat.div_lt_self (by omega) hb)]
      rw [Nat.mul_comm]; exact Nat.div_add_mod n b

theorem digitsOf_length_pos (b n : Nat) (hb : 2 ≤ b) : 0 < (digitsOf b n hb).length := by
  rw [digitsOf]; split <;> simp

theorem digitsOf_ne_nil (b n : Nat) (hb : 2 ≤ b) : digitsOf b n hb ≠ [] :=
  List.length_pos_iff.1 (digitsOf_length_pos b n hb)

theorem digitsOf_length_le {b : Nat} (hb : 2 ≤ b) : ∀ (k n : Nat),
    (digitsOf b n hb).length ≤ k + 1 ↔ n < b ^ (k + 1)
  | 0, n => by
    rw [digitsOf]
    split
    · simpa using ‹n < b›
    · have := digitsOf_length_pos b (n / b) hb
      rw [List.length_append, List.length_singleton, Nat.zero_add, Nat.pow_one]
      constructor <;> omega
  | k + 1, n => by
    rw [digitsOf]
    split
    · rename_i h
      simp only [List.length_cons, List.length_nil]
      have : b ^ 1 ≤ b ^ (k + 1 + 1) := Nat.pow_le_pow_right (by omega) (by omega)
      rw [Nat.pow_one] at this
      omega
    · rename_i h
      have ih := digitsOf_length_le hb k (n / b)
      rw [List.length_append, List.length_singleton, Nat.add_le_add_iff_right, ih,
        Nat.div_lt_iff_lt_mul (by omega), ← Nat.pow_succ]

/-- The first digit is zero only for the number zero. -/
theorem digitsOf_head (b n : Nat) (hb : 2 ≤ b) (hn : n ≠ 0) :
    ∃ d ds, digitsOf b n hb = d :: ds ∧ d ≠ 0 := by
  induction n using Nat.strongRecOn with
  | _ n ih =>
    rw [digitsOf]
    split
    · exact ⟨n, [], rfl, hn⟩
    · rename_i h
      obtain ⟨d, ds, he, h0⟩ := ih (n / b) (Nat.div_lt_self (by omega) hb)
        (by have := Nat.div_pos (a := n) (b := b) (by omega) (by omega); omega)
      exact ⟨d, ds ++ [n % b], by rw [he]; rfl, h0⟩

/-- Low `L` digits, zero padded. -/
def lowDigits (b : Nat) : (L n : Nat) → List Nat
  | 0, _ => []
  | L + 1, n => lowDigits b L (n / b) ++ [n % b]

theorem lowDigits_length (b : Nat) : ∀ L n, (lowDigits b L n).length = L
  | 0, _ => rfl
  | L + 1, n => by simp [lowDigits, lowDigits_length b L]

theorem lowDigits_zero (b : Nat) : ∀ L, lowDigits b L 0 = List.replicate L 0
  | 0 => rfl
  | L + 1 => by simp [lowDigits, lowDigits_zero b L, List.replicate_succ']

theorem lowDigits_lt {b : Nat} (hb : 2 ≤ b) : ∀ L n, ∀ d ∈ lowDigits b L n, d < b
  | 0, _ => by simp [lowDigits]
  | L + 1, n => by
    intro d hd
    simp only [lowDigits, List.mem_append, List.mem_singleton] at hd
    rcases hd with hd | hd
    · exact lowDigits_lt hb L _ d hd
    · subst hd; exact Nat.mod_lt _ (by omega)

theorem ofDigits_lowDigits (b : Nat) (hb : 2 ≤ b) : ∀ L n, ofDigits b (lowDigits b L n) = n % b ^ L
  | 0, n => by simp [lowDigits, ofDigits, Nat.mod_one]
  | L + 1, n => by
    rw [lowDigits, ofDigits_append, ofDigits_lowDigits b hb L]
    rw [Nat.pow_succ, Nat.mul_comm (b ^ L) b, Nat.mod_mul]
    rw [Nat.mul_comm]; omega

theorem lowDigits_digitsOf (b n : Nat) (hb : 2 ≤ b) : lowDigits b (digitsOf b n hb).length n = digitsOf b n hb := by
  induction n using Nat.strongRecOn with
  | _ n ih =>
    rw [digitsOf]
    split
    · rename_i h; simp [lowDigits, Nat.mod_eq_of_lt h]
    · simp only [List.length_append, List.length_singleton, lowDigits]
      rw [ih (n / b) (Nat.div_lt_self (by omega) hb)]

/-! ### itoa, utoa -/

theorem lenLoop_eq (x len : Int) : lenLoop x len = len + (dec x.natAbs).length := by
  generalize hn : x.natAbs = n
  induction n using Nat.strongRecOn generalizing x len with
  | _ n ih =>
    rw [lenLoop]
    have h1 : (x.tdiv 10).natAbs = n / 10 := by rw [Int.natAbs_tdiv, hn]; rfl
    simp only [dec, List.length_map]
    rw [digitsOf]
    by_cases h : n < 10
    · have : x.tdiv 10 = 0 := by omega
      simp [this, h]
    · have : x.tdiv 10 ≠ 0 := by omega
      simp only [ne_eq, this, not_false_eq_true, if_true, h, dite_false]
      rw [ih (n / 10) (by omega) (x.tdiv 10) (len + 1) h1]
      simp [dec]; omega

theorem wrInt_ok {b : List Byte} {i : Int} {v : Byte} {k : Nat} (h : i = k) : wrInt b i v = wr b k v := by
  subst h; simp [wrInt]

theorem digitLoop_ok (A : List Byte) (start : Int) (hA : start = A.length) (number : Nat) :
    ∀ (P rest : List Byte) (len : Int), P.length = (dec number).length → len = P.length →
    digitLoop (A ++ P ++ rest) start len number = .ok (A ++ dec number ++ rest) := by
  induction number using Nat.strongRecOn with
  | _ n ih =>
    intro P rest len hP hlen
    rw [digitLoop]
    have hdec : dec n = if n < 10 then [BitVec.ofNat 8 (48 + n)] else dec (n / 10) ++ [BitVec.ofNat 8 (48 + n % 10)] := by
      unfold dec
      rw [digitsOf]
      split <;> simp
    have hne : P ≠ [] := by
      intro h
      have := digitsOf_length_pos 10 n (by omega)
      rw [h] at hP; simp [dec] at hP; omega
    obtain ⟨P', x, rfl⟩ : ∃ P' x, P = P' ++ [x] := ⟨P.dropLast, P.getLast hne, (List.dropLast_concat_getLast hne).symm⟩
    have hc0 : (ch '0').toNat = 48 := by decide
    rw [hc0]
    have hw : wrInt (A ++ (P' ++ [x]) ++ rest) (start + len - 1) (BitVec.ofNat 8 (48 + n % 10))
        = .ok (A ++ P' ++ (BitVec.ofNat 8 (48 + n % 10) :: rest)) := by
      rw [wrInt_ok (k := (A ++ P').length) (by simp at hlen ⊢; omega)]
      have : A ++ (P' ++ [x]) ++ rest = (A ++ P') ++ x :: rest := by simp
      rw [this, wr_append rfl]
    simp only [hw, ok_bind]
    have hsub : (n - n % 10) / 10 = n / 10 := by omega
    rw [hsub]
    by_cases h : n < 10
    · rw [dif_neg (by omega)]
      rw [hdec, if_pos h] at hP ⊢
      have : P' = [] := by
        simpa using hP
      subst this
      have : n % 10 = n := by omega
      simp [this]
    · rw [dif_pos (by omega)]
      rw [hdec, if_neg h] at hP ⊢
      rw [ih (n / 10) (by omega) P' _ (len - 1) (by simp at hP; omega) (by simp at hlen; omega)]
      simp

theorem digitLoop_short (number : Nat) : ∀ (b : List Byte) (len : Int), 0 ≤ len → len ≤ b.length →
    len < (dec number).length → digitLoop b 0 len number = .error .oobWrite := by
  induction number using Nat.strongRecOn with
  | _ n ih =>
    intro b len h0 hb hlt
    rw [digitLoop]
    have hdec : dec n = if n < 10 then [BitVec.ofNat 8 (48 + n)] else dec (n / 10) ++ [BitVec.ofNat 8 (48 + n % 10)] := by
      unfold dec
      rw [digitsOf]
      split <;> simp
    by_cases hl : len = 0
    · subst hl; simp [wrInt]
    · rw [wrInt_ok (k := len.toNat - 1) (by omega), wr_ok (by omega)]
      simp only [ok_bind]
      have hsub : (n - n % 10) / 10 = n / 10 := by omega
      rw [hsub]
      by_cases h : n < 10
      · rw [hdec, if_pos h] at hlt; simp at hlt; omega
      · rw [dif_pos (by omega)]
        rw [hdec, if_neg h] at hlt
        apply ih (n / 10) (by omega) _ _ (by omega) (by simp; omega)
        simp at hlt; omega

theorem split_at (b : List Byte) (n : Nat) (h : n < b.length) :
    b = b.take n ++ b[n] :: b.drop (n + 1) := by
  rw [← List.drop_eq_getElem_cons h, List.take_append_drop]

/-! ### numberToString -/

theorem countLoop_eq (b : Nat) (hb : 2 ≤ b) (n : Nat) :
    (if countLoop b n hb = 0 then 1 else countLoop b n hb) = (digitsOf b n hb).length := by
  have key : ∀ n, n ≠ 0 → countLoop b n hb = (digitsOf b n hb).length := by
    intro n
    induction n using Nat.strongRecOn with
    | _ n ih =>
      intro hn
      rw [countLoop, dif_pos hn, digitsOf]
      split
      · rename_i h
        rw [Nat.div_eq_of_lt h, countLoop]
        simp
      · rename_i h
        rw [ih (n / b) (Nat.div_lt_self (by omega) hb)
          (by have := Nat.div_pos (a := n) (b := b) (by omega) (by omega); omega)]
        simp
  by_cases hn : n = 0
  · subst hn
    rw [countLoop, digitsOf]
    simp [show 0 < b by omega]
  · have h := key n hn
    have hp := digitsOf_length_pos b n hb
    rw [h, if_neg (by omega)]

theorem fillLoop_put (b : List Byte) (r : Nat) : ∀ (n i : Nat) (xs : List Byte), i = xs.length →
    r + i + n ≤ b.length →
    fillLoop (put b r xs) r n i = .ok (put b r (xs ++ List.replicate n (ch '0')))
  | 0, i, xs, hi, h => by simp [fillLoop]
  | n + 1, i, xs, hi, h => by
    simp only [fillLoop]
    rw [wr_put (by omega) (by omega)]
    simp only [ok_bind]
    rw [fillLoop_put b r n (i + 1) _ (by simp; omega) (by omega)]
    simp [List.replicate_succ]

/-- Overwriting inside a stored block. -/
theorem wr_put_mid {b xs ys : List Byte} {x v : Byte} {i j : Nat} (hj : j = i + xs.length)
    (h : i + xs.length + 1 + ys.length ≤ b.length) :
    wr (put b i (xs ++ x :: ys)) j v = .ok (put b i (xs ++ v :: ys)) := by
  subst hj
  have e : ∀ z, put b i (xs ++ z :: ys) = (b.take i ++ xs) ++ z :: (ys ++ b.drop (i + (xs.length + (ys.length + 1)))) := by
    intro z; simp [put]
  rw [e, e, wr_append (by simp; omega)]

theorem digitChar_eq (base flags i : Nat) (h : i < base) (hb : base ≤ 62) :
    digitChar base flags i = .ok (symbol (flags &&& NTS_LOWERCASE_CHARS ≠ 0 && decide (base ≤ 36)) i) := by
  have h1 : ∀ i : Fin 62, rd conv_cypher i = .ok (symbol false i) := by decide
  have h2 : ∀ i : Fin 36, i.val ≥ 10 → rd conv_cypher (i.val + 26) = .ok (symbol true i) := by decide
  have h3 : ∀ i : Fin 62, (i.val < 10 ∨ 36 ≤ i.val) → symbol true i = symbol false i := by decide
  unfold digitChar
  by_cases hc : flags &&& NTS_LOWERCASE_CHARS ≠ 0 ∧ base ≤ 36 ∧ i ≥ 10 ∧ i < 36
  · rw [if_neg (by simpa using hc)]
    rw [h2 ⟨i, hc.2.2.2⟩ hc.2.2.1]
    simp [hc.1, hc.2.1]
  · rw [if_pos hc, h1 ⟨i, by omega⟩]
    congr 1
    by_cases hl : flags &&& NTS_LOWERCASE_CHARS ≠ 0 ∧ base ≤ 36
    · have : ¬ (i ≥ 10 ∧ i < 36) := fun h => hc ⟨hl.1, hl.2, h⟩
      have e := h3 ⟨i, by omega⟩ (by simp; omega)
      simp only [hl.1, hl.2, ne_eq, not_false_eq_true, decide_true, Bool.and_true]
      simpa using e.symm
    · have : (decide (flags &&& NTS_LOWERCASE_CHARS ≠ 0) && decide (base ≤ 36)) = false := by
        simp only [Bool.and_eq_false_iff, decide_eq_false_iff_not]
        exact Decidable.not_and_iff_or_not.1 hl
      rw [this]

theorem symbol_zero (l : Bool) : symbol l 0 = ch '0' := by cases l <;> decide

theorem digitsLoop_put (b : List Byte) (r base flags : Nat) (hb : 2 ≤ base) (hb' : base ≤ 62) :
    ∀ (len number : Nat) (ys : List Byte), r + len + ys.length ≤ b.length →
    digitsLoop base flags (put b r (List.replicate len (ch '0') ++ ys)) r len number =
      .ok (put b r ((lowDigits base len number).map
        (symbol (flags &&& NTS_LOWERCASE_CHARS ≠ 0 && decide (base ≤ 36))) ++ ys))
  | 0, number, ys, h => by simp [digitsLoop, lowDigits]
  | len + 1, number, ys, h => by
    simp only [digitsLoop]
    by_cases hn : number = 0
    · subst hn
      rw [if_pos rfl, lowDigits_zero]
      simp [symbol_zero]
    · rw [if_neg hn, digitChar_eq base flags _ (Nat.mod_lt _ (by omega)) hb']
      simp only [ok_bind]
      rw [List.replicate_succ', List.append_assoc, List.cons_append, List.nil_append]
      rw [wr_put_mid (by simp) (by simp; omega)]
      simp only [ok_bind]
      rw [digitsLoop_put b r base flags hb hb' len _ _ (by simp; omega)]
      have : (number - number % base) / base = number / base := by
        have := Nat.div_add_mod number base
        rw [show number - number % base = base * (number / base) by omega]
        exact Nat.mul_div_cancel_left _ (by omega)
      rw [this]
      simp [lowDigits]

/-- Number of leading zeros of a digit list. -/
def leadingZeros (ds : List Nat) : Nat := (ds.takeWhile (· = 0)).length

theorem symbol_eq_zero (l : Bool) {d : Nat} (h : d < 62) : symbol l d = ch '0' ↔ d = 0 := by
  have : ∀ l : Bool, ∀ d : Fin 62, symbol l d = ch '0' ↔ d.val = 0 := by decide
  exact this l ⟨d, h⟩

theorem shrLoop_put (b : List Byte) (r : Nat) (l : Bool) : ∀ (ds : List Nat) (xs ys : List Byte) (i : Nat),
    i = xs.length → (∀ d ∈ ds, d < 62) → r ≤ b.length →
    shrLoop (put b r (xs ++ ds.map (symbol l) ++ ys)) r ds.length i = .ok (leadingZeros ds)
  | [], xs, ys, i, hi, hd, hr => by simp [shrLoop, leadingZeros]
  | d :: ds, xs, ys, i, hi, hd, hr => by
    simp only [List.length_cons, shrLoop]
    have hrd : rd (put b r (xs ++ (d :: ds).map (symbol l) ++ ys)) (r + i) = .ok (symbol l d) := by
      unfold put
      rw [List.append_assoc, rd_append_right (by simp; omega)]
      rw [List.append_assoc, List.append_assoc, rd_append_right (by simp; omega)]
      have : r + i - (List.take r b).length - xs.length = 0 := by simp; omega
      rw [this]
      simp
    rw [hrd]
    simp only [ok_bind]
    have hd62 : d < 62 := hd d (by simp)
    by_cases h0 : d = 0
    · subst h0
      rw [if_pos (symbol_zero l)]
      have := shrLoop_put b r l ds (xs ++ [symbol l 0]) ys (i + 1) (by simp; omega)
        (fun d h => hd d (by simp [h])) hr
      rw [show xs ++ [symbol l 0] ++ ds.map (symbol l) ++ ys = xs ++ (0 :: ds).map (symbol l) ++ ys by simp] at this
      rw [this]
      simp [leadingZeros]
    · rw [if_neg (by rw [symbol_eq_zero l hd62]; exact h0)]
      simp [leadingZeros, h0]

theorem wr_put_before {b xs : List Byte} {v : Byte} (h : 1 + xs.length ≤ b.length) :
    wr (put b 1 xs) 0 v = .ok (put b 0 (v :: xs)) := by
  match b, h with
  | [], h => simp at h
  | x :: b, h => simp [put, wr, Nat.add_comm]

/-- Everything `numberToString` does for a valid even base. -/
theorem numberToString_main (number : BitVec 64) (base : Nat) (buffer : List Byte) (maxlen flags : Nat)
    (hb : 2 ≤ base) (hev : base % 2 = 0) (hb' : base ≤ 62)
    (neg : Bool) (hneg : neg = ((flags &&& NTS_SIGNED_TYPE ≠ 0) && decide (2^63 ≤ number.toNat)))
    (mag L : Nat) (hmag : mag = if neg then 2^64 - number.toNat else number.toNat)
    (hL : L = if maxlen = 0 then (digitsOf base mag hb).length else maxlen)
    (hbuf : (if neg then 1 else 0) + L + 1 ≤ buffer.length) :
    numberToString number base buffer maxlen flags =
      .ok (put buffer 0 ((if neg then [45] else []) ++
            (lowDigits base L mag).map (symbol (flags &&& NTS_LOWERCASE_CHARS ≠ 0 && decide (base ≤ 36))) ++ [0]),
          some (if flags = 0 then (if mag = 0 then L - 1 else leadingZeros (lowDigits base L mag)) else 0)) := by
  have hlen : conv_cypher.length = 62 := by decide
  have h63 : (number >>> 63 == 1) = decide (2^63 ≤ number.toNat) := by
    have hn := number.isLt
    rw [Bool.eq_iff_iff, beq_iff_eq, decide_eq_true_iff]
    constructor
    · intro h
      have := congrArg BitVec.toNat h
      simp [Nat.shiftRight_eq_div_pow] at this
      omega
    · intro h
      apply BitVec.eq_of_toNat_eq
      simp [Nat.shiftRight_eq_div_pow]
      omega
  have hLpos : 0 < L := by
    rw [hL]; split
    · exact digitsOf_length_pos _ _ _
    · omega
  unfold numberToString
  rw [if_neg (by omega)]
  simp only [h63, ← hneg]
  rw [dif_pos hb]
  -- the magnitude
  have hmagn : (if neg = true then ~~~number + 1 else number).toNat = mag := by
    rw [hmag]
    cases neg with
    | false => rfl
    | true =>
      have h2 : 2^63 ≤ number.toNat := by
        have := hneg.symm
        simp only [Bool.and_eq_true, decide_eq_true_eq] at this
        exact this.2
      have hn := number.isLt
      simp only [if_true, BitVec.toNat_add, BitVec.toNat_not]
      simp; omega
  rw [hmagn]
  have hnum0 : ((if neg = true then ~~~number + 1 else number) = 0) ↔ mag = 0 := by
    rw [← hmagn]
    constructor
    · intro h; rw [h]; rfl
    · intro h; exact BitVec.eq_of_toNat_eq (by simpa using h)
  have hcount : (if maxlen = 0 then (if countLoop base mag hb = 0 then 1 else countLoop base mag hb) else maxlen) = L := by
    rw [hL, countLoop_eq]
  rw [hcount]
  have hfill := fillLoop_put buffer (if neg = true then 1 else 0) L 0 [] rfl (by omega)
  rw [put_nil, List.nil_append] at hfill
  rw [hfill]
  simp only [ok_bind]
  rw [wr_put (by simp) (by omega)]
  simp only [ok_bind]
  by_cases h0 : mag = 0
  · have hnf : neg = false := by
      cases neg with
      | false => rfl
      | true => rw [if_pos rfl] at hmag; have := number.isLt; omega
    rw [if_pos (hnum0.2 h0)]
    subst hnf
    rw [h0, lowDigits_zero]
    simp [symbol_zero]
  · rw [if_neg (by rw [hnum0]; exact h0)]
    rw [digitsLoop_put buffer _ base flags hb hb' L mag [0] (by simp; omega)]
    simp only [ok_bind]
    by_cases hf : flags = 0
    · have hnf : neg = false := by rw [hneg, hf]; simp
      subst hnf
      rw [if_pos hf, if_pos hf, if_neg h0]
      have hs := shrLoop_put buffer 0 (flags &&& NTS_LOWERCASE_CHARS ≠ 0 && decide (base ≤ 36))
        (lowDigits base L mag) [] [0] 0 rfl (fun d hd => by have := lowDigits_lt hb L mag d hd; omega) (by omega)
      rw [lowDigits_length, List.nil_append] at hs
      simp only [Bool.false_eq_true, if_false]
      rw [hs]
      simp
    · rw [if_neg hf, if_neg hf]
      cases neg with
      | false => simp
      | true =>
        simp only [if_true, Nat.sub_self]
        rw [wr_put_before (by simp [lowDigits_length]; simp at hbuf; omega)]
        simp [show ch '-' = (45 : Byte) from by decide]

end Ulz.Numbers

import Verif.Proofs.Format
/-! Properties C62, C63, C64, C93 and C94: formatted printing. -/
namespace Ulz.Props
open Ulz.Format Ulz.Format.Spec Numbers.Spec

/-! ### C62 and C94 -/

/-- C94: every format is a list of literals and conversions, or such a list followed by an unsupported conversion. -/
theorem format_parses (s : List Byte) (h : 0 ∉ s) : ∃ is bad, Parses s is bad := parse_total s.length s (Nat.le_refl _) h

/-- C62, C94: for every format, destination, size, arguments and content of the conversion buffer, printing does what the
    specification says of the items: the text cut to the size and terminated; −1 at an unsupported conversion or a NULL string, the
    text before it stored but not terminated; or undefined behaviour. -/
theorem vsnprintf_correct (s junk : List Byte) (is : List Item) (bad : Bool) (hp : Parses s is bad) (dest : Option (List Byte)) (size : Nat)
    (hd : DestOk dest size) (args : List Arg) (cbuf : List Byte) (hc : cbuf.length = 32) :
    Result dest size (render 0 is bad args) (ulz_vsnprintf dest size (s ++ 0 :: junk) args cbuf) := by
  obtain ⟨h1, h2⟩ := hp
  have hmk : ({ dest := dest, destsize := size, o := 0, res := 0, width := 0, cbuf := cbuf, args := args } : St) = mk dest size [] 0 cbuf args := by
    cases dest <;> simp [mk]
  have hpre : (render 0 is bad args).prepend [] = render 0 is bad args := by
    cases render 0 is bad args <;> rfl
  unfold ulz_vsnprintf
  rw [hmk]
  cases bad with
  | false =>
    simp only [Bool.false_eq_true, if_false] at h2
    rw [h2]
    have := loop_spec hd false (0 :: junk) (by exact ⟨junk, rfl⟩) is h1 [] 0 cbuf hc args ((spell is ++ 0 :: junk).length + 1) (by omega)
    rwa [hpre] at this
  | true =>
    simp only [if_true] at h2
    obtain ⟨t, h2, h3⟩ := h2
    have e : s ++ 0 :: junk = spell is ++ ch '%' :: (t ++ junk) := by
      have : s ++ 0 :: junk = (s ++ [0]) ++ junk := by simp
      rw [this, h2]; simp
    rw [e]
    have := loop_spec hd true (ch '%' :: (t ++ junk)) (by exact ⟨_, rfl, bad_append h3 junk⟩) is h1 [] 0 cbuf hc args ((spell is ++ ch '%' :: (t ++ junk)).length + 1) (by omega)
    rwa [hpre] at this

theorem render_text (is : List Item) (h1 : OneDigit is) : ∀ (args : List Arg), WellTyped is args → ∀ w, w < 10 → ∃ t, render w is false args = .text t := by
  induction is with
  | nil => intro args _ w _; exact ⟨[], rfl⟩
  | cons i is ih =>
    have ih := ih (fun ps k h => h1 ps k (List.mem_cons_of_mem _ h))
    intro args ht w hw
    cases i with
    | lit c =>
      obtain ⟨t, h⟩ := ih args ht w hw
      exact ⟨[c] ++ t, by rw [render, h]; rfl⟩
    | conv ps k =>
      have hpend : pend ps w < 10 := by
        unfold pend
        split
        · rename_i ds hds
          obtain ⟨d, hd, rfl⟩ := h1 ps k (List.mem_cons_self ..) ds (List.mem_of_getLast? hds)
          simp only [Spec.width, weigh, Nat.add_zero]
          omega
        · exact hw
      rw [render]
      generalize pend ps w = w' at *
      have key : ∃ u w'' args', convText w' k args = .text u w'' args' ∧ w'' < 10 ∧ WellTyped is args' := by
        have hnum : ∀ (k : Kind) (a : Arg) (x : Int) (hex lower : Bool) (args : List Arg), number k a = some (x, hex, lower) →
            (k ≠ .pct ∧ k ≠ .s ∧ k ≠ .c) → WellTyped is args → ∃ u w'' args', convText w' k (a :: args) = .text u w'' args' ∧ w'' < 10 ∧ WellTyped is args' := by
          intro k a x hex lower args hn hk hwt
          rw [convText_num w' k hk a args x hex lower hn, if_pos (by have := sign_le x; omega)]
          exact ⟨_, 0, args, rfl, by omega, hwt⟩
        match k, args, ht with
        | .pct, args, ht => exact ⟨_, w', args, rfl, hpend, ht⟩
        | .s, .str (some b) :: args, ht =>
          refine ⟨cstr b, w', args, ?_, hpend, ht.2⟩
          have : (0 : Byte) ∈ b := ht.1
          simp only [convText]
          rw [if_pos this]
        | .c, .int v :: args, ht => exact ⟨_, w', args, rfl, hpend, ht.2⟩
        | .d, .int v :: args, ht => exact hnum .d _ _ _ _ args rfl (by simp) ht.2
        | .u, .int v :: args, ht => exact hnum .u _ _ _ _ args rfl (by simp) ht.2
        | .x, .int v :: args, ht => exact hnum .x _ _ _ _ args rfl (by simp) ht.2
        | .X, .int v :: args, ht => exact hnum .X _ _ _ _ args rfl (by simp) ht.2
        | .p, .long v :: args, ht => exact hnum .p _ _ _ _ args rfl (by simp) ht.2
        | .ld, .long v :: args, ht => exact hnum .ld _ _ _ _ args rfl (by simp) ht.2
        | .lu, .long v :: args, ht => exact hnum .lu _ _ _ _ args rfl (by simp) ht.2
        | .lld, .long v :: args, ht => exact hnum .lld _ _ _ _ args rfl (by simp) ht.2
        | .llu, .long v :: args, ht => exact hnum .llu _ _ _ _ args rfl (by simp) ht.2
        | .zd, .long v :: args, ht => exact hnum .zd _ _ _ _ args rfl (by simp) ht.2
        | .zu, .long v :: args, ht => exact hnum .zu _ _ _ _ args rfl (by simp) ht.2
      obtain ⟨u, w'', args', hu, hw'', ht'⟩ := key
      rw [hu]
      obtain ⟨t, h⟩ := ih args' ht' w'' hw''
      exact ⟨u ++ t, by simp only [h]; rfl⟩

/-- C62: for formats with one-digit precisions and the arguments they need, printing has no undefined behaviour and writes only
    inside the `size` bytes at the destination: the longest prefix of the text that leaves room for a terminator, and the
    terminator. It returns the number of characters stored, and, for a NULL destination, the length of the text. -/
theorem vsnprintf_inside (is : List Item) (hok : ∀ i ∈ is, i.Ok) (h1 : OneDigit is) (args : List Arg) (ht : WellTyped is args) (junk cbuf : List Byte) (hc : cbuf.length = 32) :
    ∃ t, render 0 is false args = .text t ∧
      (∀ size, ulz_vsnprintf none size (spell is ++ 0 :: junk) args cbuf = .ok (none, t.length)) ∧
      (∀ size b, 1 ≤ size → size ≤ b.length → ulz_vsnprintf (some b) size (spell is ++ 0 :: junk) args cbuf =
        .ok (some (put b 0 (t.take (size - 1) ++ [0])), ((min t.length (size - 1) : Nat) : Int))) := by
  obtain ⟨t, h⟩ := render_text is h1 args ht 0 (by decide)
  refine ⟨t, h, ?_, ?_⟩
  · intro size
    have := vsnprintf_correct (spell is) junk is false ⟨hok, rfl⟩ none size (fun b hb => by simp at hb) args cbuf hc
    rw [h] at this
    exact this
  · intro size b hs hb
    have := vsnprintf_correct (spell is) junk is false ⟨hok, rfl⟩ (some b) size (fun b' hb' => by injection hb' with e; rw [← e]; exact hb) args cbuf hc
    rw [h] at this
    simp only [Result] at this
    rwa [if_neg (by intro h; subst h; simp at hb; omega)] at this

/-- C62: a size of 0 with a destination that is not NULL is undefined: the terminator is written in front of nothing. -/
theorem vsnprintf_size_zero (is : List Item) (hok : ∀ i ∈ is, i.Ok) (args : List Arg) (t junk cbuf : List Byte) (hc : cbuf.length = 32)
    (ht : render 0 is false args = .text t) : ulz_vsnprintf (some []) 0 (spell is ++ 0 :: junk) args cbuf = .error .oobWrite := by
  have := vsnprintf_correct (spell is) junk is false ⟨hok, rfl⟩ (some []) 0 (fun b hb => by injection hb with e; simp [← e]) args cbuf hc
  rw [ht] at this
  simpa only [Result, if_true] using this

/-- "%s: %.3d (%c%%)" -/
def exampleItems : List Item :=
  [.conv [] .s, .lit (ch ':'), .lit (ch ' '), .conv [[3]] .d, .lit (ch ' '), .lit (ch '('), .conv [] .c, .conv [] .pct, .lit (ch ')')]

example : spell exampleItems = bytes! "%s: %.3d (%c%%)" := by decide

example (cbuf : List Byte) (hc : cbuf.length = 32) :
    ulz_vsnprintf (some (List.replicate 9 255)) 9 (bytes! "%s: %.3d (%c%%)" ++ [0]) [.str (some (bytes! "ab" ++ [0])), .int (BitVec.ofInt 32 (-7)), .int 65] cbuf =
      .ok (some (bytes! "ab: -007" ++ [0]), 8) := by
  obtain ⟨t, h1, _, h3⟩ := vsnprintf_inside exampleItems (by simp [exampleItems, Item.Ok, PrecsOk]; decide)
    (by
      intro ps k h ds hds
      simp only [exampleItems, List.mem_cons, List.not_mem_nil, or_false, Item.conv.injEq, reduceCtorEq, false_or] at h
      rcases h with ⟨rfl, _⟩ | ⟨rfl, _⟩ | ⟨rfl, _⟩ | ⟨rfl, _⟩ <;> simp at hds
      exact ⟨3, by decide, hds⟩) [.str (some (bytes! "ab" ++ [0])), .int (BitVec.ofInt 32 (-7)), .int 65] (by simp [exampleItems, WellTyped, Fits]) [] cbuf hc
  have e : render 0 exampleItems false [.str (some (bytes! "ab" ++ [0])), .int (BitVec.ofInt 32 (-7)), .int 65] = .text (bytes! "ab: -007 (A%)") := by
    decide +kernel
  rw [e] at h1
  injection h1 with h1
  subst h1
  exact h3 9 (List.replicate 9 255) (by decide) (by decide)

/-! ### C63 -/

/-- A format of one conversion, with room for its text. -/
theorem snprintf_one (ps : List (List Nat)) (hps : PrecsOk ps) (k : Kind) (args args' : List Arg) (t : List Byte) (w : Nat) (h : convText (pend ps 0) k args = .text t w args')
    (junk cbuf : List Byte) (hc : cbuf.length = 32) (size : Nat) (b : List Byte) (hs : t.length < size) (hb : size ≤ b.length) :
    ulz_vsnprintf (some b) size ((Item.conv ps k).spell ++ 0 :: junk) args cbuf = .ok (some (put b 0 (t ++ [0])), t.length) := by
  have hr : render 0 [.conv ps k] false args = .text t := by
    rw [render, h]
    simp [render, Outcome.prepend]
  have := vsnprintf_correct (Item.conv ps k).spell junk [.conv ps k] false ⟨by intro i hi; rw [List.mem_singleton] at hi; subst hi; exact hps, by simp [spell]⟩ (some b) size
    (fun b' hb' => by injection hb' with e; rw [← e]; exact hb) args cbuf hc
  rw [hr] at this
  simp only [Result] at this
  rw [if_neg (by intro h; subst h; simp at hb; omega), List.take_of_length_le (by omega), show min t.length (size - 1) = t.length by omega] at this
  exact this

theorem numText_dec (x : Int) : numText 10 (by decide) false 0 x = decInt x := by
  unfold numText decInt dec
  rw [if_pos rfl, symbol_dec _ (Numbers.digitsOf_lt _)]
  by_cases h : x < 0
  · rw [if_pos h, if_pos h]; rfl
  · rw [if_neg h, if_neg h]; rfl

section
variable (junk cbuf : List Byte) (hc : cbuf.length = 32) (size : Nat) (b : List Byte) (hb : size ≤ b.length)
include hc hb

/-- C63: %d prints the canonical decimal. -/
theorem snprintf_d (v : BitVec 32) (hs : (decInt v.toInt).length < size) :
    ulz_vsnprintf (some b) size (bytes! "%d" ++ 0 :: junk) [.int v] cbuf = .ok (some (put b 0 (decInt v.toInt ++ [0])), (decInt v.toInt).length) := by
  rw [← numText_dec] at hs ⊢
  exact snprintf_one [] (by simp [PrecsOk]) .d [.int v] [] _ 0 (convText_dec 0 (by decide) .d (by simp) _ [] _ rfl) junk cbuf hc size b hs hb

/-- C63: %u prints the canonical decimal. -/
theorem snprintf_u (v : BitVec 32) (hs : (dec v.toNat).length < size) :
    ulz_vsnprintf (some b) size (bytes! "%u" ++ 0 :: junk) [.int v] cbuf = .ok (some (put b 0 (dec v.toNat ++ [0])), (dec v.toNat).length) := by
  have e : dec v.toNat = numText 10 (by decide) false 0 (v.toNat : Int) := by rw [numText_dec]; rfl
  rw [e] at hs ⊢
  exact snprintf_one [] (by simp [PrecsOk]) .u [.int v] [] _ 0 (convText_dec 0 (by decide) .u (by simp) _ [] _ rfl) junk cbuf hc size b hs hb

/-- C63: %ld, %lld and %zd print the canonical decimal. -/
theorem snprintf_ld (v : BitVec 64) (f : List Byte) (hf : f = bytes! "%ld" ∨ f = bytes! "%lld" ∨ f = bytes! "%zd") (hs : (decInt v.toInt).length < size) :
    ulz_vsnprintf (some b) size (f ++ 0 :: junk) [.long v] cbuf = .ok (some (put b 0 (decInt v.toInt ++ [0])), (decInt v.toInt).length) := by
  rw [← numText_dec] at hs ⊢
  rcases hf with rfl | rfl | rfl
  · exact snprintf_one [] (by simp [PrecsOk]) .ld [.long v] [] _ 0 (convText_dec 0 (by decide) .ld (by simp) _ [] _ rfl) junk cbuf hc size b hs hb
  · exact snprintf_one [] (by simp [PrecsOk]) .lld [.long v] [] _ 0 (convText_dec 0 (by decide) .lld (by simp) _ [] _ rfl) junk cbuf hc size b hs hb
  · exact snprintf_one [] (by simp [PrecsOk]) .zd [.long v] [] _ 0 (convText_dec 0 (by decide) .zd (by simp) _ [] _ rfl) junk cbuf hc size b hs hb

/-- C63: %lu, %llu and %zu print the canonical decimal. -/
theorem snprintf_lu (v : BitVec 64) (f : List Byte) (hf : f = bytes! "%lu" ∨ f = bytes! "%llu" ∨ f = bytes! "%zu") (hs : (dec v.toNat).length < size) :
    ulz_vsnprintf (some b) size (f ++ 0 :: junk) [.long v] cbuf = .ok (some (put b 0 (dec v.toNat ++ [0])), (dec v.toNat).length) := by
  have e : dec v.toNat = numText 10 (by decide) false 0 (v.toNat : Int) := by rw [numText_dec]; rfl
  rw [e] at hs ⊢
  rcases hf with rfl | rfl | rfl
  · exact snprintf_one [] (by simp [PrecsOk]) .lu [.long v] [] _ 0 (convText_dec 0 (by decide) .lu (by simp) _ [] _ rfl) junk cbuf hc size b hs hb
  · exact snprintf_one [] (by simp [PrecsOk]) .llu [.long v] [] _ 0 (convText_dec 0 (by decide) .llu (by simp) _ [] _ rfl) junk cbuf hc size b hs hb
  · exact snprintf_one [] (by simp [PrecsOk]) .zu [.long v] [] _ 0 (convText_dec 0 (by decide) .zu (by simp) _ [] _ rfl) junk cbuf hc size b hs hb

/-- C63: %s prints the string. -/
theorem snprintf_s (s j : List Byte) (h0 : 0 ∉ s) (hs : s.length < size) :
    ulz_vsnprintf (some b) size (bytes! "%s" ++ 0 :: junk) [.str (some (s ++ 0 :: j))] cbuf = .ok (some (put b 0 (s ++ [0])), s.length) := by
  have e : cstr (s ++ 0 :: j) = s := by
    unfold cstr
    rw [List.takeWhile_append_of_pos]
    · simp
    · intro a ha
      simp only [decide_eq_true_eq]
      intro h
      exact h0 (h ▸ ha)
  exact snprintf_one [] (by simp [PrecsOk]) .s [.str (some (s ++ 0 :: j))] [] s 0
    (by simp only [convText, pend, List.getLast?_nil]; rw [if_pos (List.mem_append.2 (Or.inr (List.mem_cons_self ..))), e]) junk cbuf hc size b hs hb

/-- C63: %c prints the character (nothing for the character 0). -/
theorem snprintf_c (v : BitVec 32) (hs : 1 < size) :
    ulz_vsnprintf (some b) size (bytes! "%c" ++ 0 :: junk) [.int v] cbuf =
      if v.setWidth 8 = 0 then .ok (some (put b 0 [0]), 0) else .ok (some (put b 0 [v.setWidth 8, 0]), 1) := by
  have := snprintf_one [] (by simp [PrecsOk]) .c [.int v] [] (if v.setWidth 8 = 0 then [] else [v.setWidth 8]) 0 rfl junk cbuf hc size b (by split <;> simp <;> omega) hb
  refine Eq.trans this ?_
  split <;> simp

/-- C63: %% prints a percent sign. -/
theorem snprintf_pct (hs : 1 < size) :
    ulz_vsnprintf (some b) size (bytes! "%%" ++ 0 :: junk) [] cbuf = .ok (some (put b 0 (bytes! "%" ++ [0])), 1) :=
  snprintf_one [] (by simp [PrecsOk]) .pct [] [] (bytes! "%") 0 rfl junk cbuf hc size b hs hb

/-- C63: a precision of one digit `p ≥ 1` prints the sign and exactly the `p` lowest digits of the number. -/
theorem snprintf_prec (v : BitVec 32) (p : Nat) (h1 : 1 ≤ p) (h9 : p ≤ 9) (hs : p + 1 < size) :
    ∃ ds : List Nat, ds.length = p ∧ (∀ d ∈ ds, d < 10) ∧ ofDigits 10 ds = v.toInt.natAbs % 10 ^ p ∧
      ulz_vsnprintf (some b) size (bytes! "%." ++ [BitVec.ofNat 8 (48 + p)] ++ bytes! "d" ++ 0 :: junk) [.int v] cbuf =
        .ok (some (put b 0 ((if v.toInt < 0 then [ch '-'] else []) ++ ds.map (fun d => BitVec.ofNat 8 (48 + d)) ++ [0])),
          (if v.toInt < 0 then p + 1 else p : Nat)) := by
  have hlen : (padded 10 p v.toInt.natAbs).length = p := by simp [padded]
  have hlt : ∀ d ∈ padded 10 p v.toInt.natAbs, d < 10 := padded_lt (by decide) _ _
  refine ⟨padded 10 p v.toInt.natAbs, hlen, hlt, by rw [← padded_lowDigits]; exact Numbers.ofDigits_lowDigits 10 (by decide) _ _, ?_⟩
  have ht : numText 10 (by decide) false p v.toInt = (if v.toInt < 0 then [ch '-'] else []) ++ (padded 10 p v.toInt.natAbs).map (fun d => BitVec.ofNat 8 (48 + d)) := by
    unfold numText
    rw [if_neg (show ¬ p = 0 by omega), symbol_dec _ hlt]
  have hl2 : (numText 10 (by decide) false p v.toInt).length = if v.toInt < 0 then p + 1 else p := by
    rw [ht, List.length_append, List.length_map, hlen]
    split <;> simp <;> omega
  have hw : Spec.width [p] = p := by simp only [Spec.width, weigh, Nat.add_zero]; omega
  have := snprintf_one [[p]] (by intro ds hds; rw [List.mem_singleton] at hds; subst hds; exact ⟨by simp, by simp; omega⟩) .d [.int v] [] (numText 10 (by decide) false p v.toInt) 0
    (by rw [show pend [[p]] 0 = p from hw]; exact convText_dec p (by omega) .d (by simp) _ [] _ rfl) junk cbuf hc size b (by rw [hl2]; split <;> omega) hb
  rw [hl2, ht] at this
  exact this

/-- C63: %x prints a number that is not negative in hexadecimal (lower case), a negative one as 16 digits, its value plus 2^64. -/
theorem snprintf_x (v : BitVec 32) (hs : 16 < size) :
    ∃ ds : List Nat, (∀ d ∈ ds, d < 16) ∧ (ofDigits 16 ds : Int) = (if v.toInt < 0 then v.toInt + 2 ^ 64 else v.toInt) ∧
      (ds.head? = some 0 → ds = [0]) ∧ (v.toInt < 0 → ds.length = 16) ∧
      ulz_vsnprintf (some b) size (bytes! "%x" ++ 0 :: junk) [.int v] cbuf = .ok (some (put b 0 (ds.map (symbol true) ++ [0])), ds.length) := by
  have hi := BitVec.toInt_eq_toNat_cond v
  have hv := v.isLt
  have hx0 : ¬ (if v.toInt < 0 then v.toInt + 2 ^ 64 else v.toInt) < 0 := by
    rw [hi]
    split <;> split <;> omega
  generalize hx : (if v.toInt < 0 then v.toInt + 2 ^ 64 else v.toInt) = x at *
  obtain ⟨n, rfl⟩ : ∃ n : Nat, x = n := ⟨x.toNat, by omega⟩
  have hn : n < 16 ^ 16 := by
    have : (n : Int) < 2 ^ 64 := by rw [← hx, hi]; split <;> split <;> omega
    omega
  have hlen := (Numbers.digitsOf_length_le (b := 16) (by decide) 15 n).2 hn
  refine ⟨digitsOf 16 n (by decide), Numbers.digitsOf_lt _, by rw [Numbers.ofDigits_digitsOf], ?_, ?_, ?_⟩
  · intro h
    by_cases h0 : n = 0
    · subst h0; rw [digitsOf]; rfl
    · obtain ⟨d, ds, he, hd0⟩ := Numbers.digitsOf_head 16 n (by decide) h0
      rw [he] at h; simp at h; exact absurd h hd0
  · intro hneg
    have hbig : ¬ n < 16 ^ 15 := by
      have : (n : Int) ≥ 2 ^ 64 - 2 ^ 31 := by
        rw [if_pos hneg, hi] at hx
        rw [hi] at hneg
        split at hx <;> omega
      omega
    have := mt (Numbers.digitsOf_length_le (b := 16) (by decide) 14 n).1 hbig
    omega
  · have ht : numText 16 (by decide) true 0 (n : Int) = (digitsOf 16 n (by decide)).map (symbol true) := by
      unfold numText
      rw [if_neg hx0, if_pos rfl]; rfl
    have := snprintf_one [] (by simp [PrecsOk]) .x [.int v] [] (numText 16 (by decide) true 0 (n : Int)) 0
      (convText_hex 0 (by decide) .x (by simp) _ [] _ true (by rw [← hx]; rfl)) junk cbuf hc size b (by rw [ht, List.length_map]; omega) hb
    rw [ht, List.length_map] at this
    exact this

end

example (cbuf : List Byte) (hc : cbuf.length = 32) :
    ulz_vsnprintf (some (List.replicate 20 1)) 20 (bytes! "%d" ++ [0]) [.int (BitVec.intMin 32)] cbuf = .ok (some (bytes! "-2147483648" ++ 0 :: List.replicate 8 1), 11) := by
  have e : decInt (BitVec.intMin 32).toInt = bytes! "-2147483648" := by decide +kernel
  have := snprintf_d [] cbuf hc 20 (List.replicate 20 1) (by decide) (BitVec.intMin 32) (by rw [e]; decide)
  rw [e] at this
  exact this

/-! ### C64 -/

/-- C64: one digit is the width; two digits are taken as the first; three as the first plus ten times the second. -/
theorem width_digits (a b c : Nat) (ha : a < 10) (hb : b < 10) : Spec.width [a] = a ∧ Spec.width [a, b] = a ∧ Spec.width [a, b, c] = a + 10 * b := by
  refine ⟨?_, ?_, ?_⟩ <;> simp only [Spec.width, weigh, List.length_cons, List.length_nil] <;> omega

/-- C64: for every precision text, printing a number with it is undefined exactly if sign, width and terminator exceed the 32
    bytes of the conversion buffer. -/
theorem precision_overrun (ds : List Nat) (h0 : ds ≠ []) (h : ∀ d ∈ ds, d < 10) (v : BitVec 32) (junk cbuf : List Byte) (hc : cbuf.length = 32) :
    (∃ u, ulz_vsnprintf none 0 (bytes! "%." ++ ds.map (fun d => BitVec.ofNat 8 (48 + d)) ++ bytes! "d" ++ 0 :: junk) [.int v] cbuf = .error u) ↔
      32 < (if v.toInt < 0 then 1 else 0) + Spec.width ds + 1 := by
  have hs : bytes! "%." ++ ds.map (fun d => BitVec.ofNat 8 (48 + d)) ++ bytes! "d" = spell [.conv [ds] .d] := by
    have e : spell [.conv [ds] .d] = bytes! "%." ++ (ds.map digit ++ bytes! "d") := by
      simp [spell, Item.spell, spellPrecs, Kind.spell, ch]
    rw [e, List.append_assoc]; rfl
  have := vsnprintf_correct (spell [.conv [ds] .d]) junk [.conv [ds] .d] false
    ⟨by intro i hi; rw [List.mem_singleton] at hi; subst hi; intro x hx; rw [List.mem_singleton] at hx; subst hx; exact ⟨h0, h⟩, rfl⟩ none 0 (fun b hb => by simp at hb) [.int v] cbuf hc
  rw [hs]
  rw [render, show pend [ds] 0 = Spec.width ds from rfl, convText_num _ .d (by simp) _ _ v.toInt false false rfl] at this
  by_cases hfit : (if v.toInt < 0 then 1 else 0) + Spec.width ds + 1 ≤ 32
  · rw [if_pos hfit] at this
    simp only [render, Outcome.prepend, Result, Bool.false_eq_true, if_false] at this
    rw [this]
    constructor
    · rintro ⟨u, hu⟩; simp at hu
    · intro hh; omega
  · rw [if_neg hfit] at this
    simp only [Result] at this
    exact ⟨fun _ => by omega, fun _ => this⟩

/-- C64: for example "%.190d", whose width is 91. -/
example (v : BitVec 32) (cbuf : List Byte) (hc : cbuf.length = 32) : ∃ u, ulz_vsnprintf none 0 (bytes! "%.190d" ++ [0]) [.int v] cbuf = .error u :=
  (precision_overrun [1, 9, 0] (by simp) (by simp) v [] cbuf hc).2 (by simp [Spec.width, weigh])

/-! ### C93 -/

/-- C93: a precision given to %s has no effect on the string and is applied to the next number. -/
theorem precision_leaks (s j : List Byte) (hs0 : 0 ∉ s) (v : BitVec 32) (p : Nat) (h1 : 1 ≤ p) (h9 : p ≤ 9) (junk cbuf : List Byte) (hc : cbuf.length = 32) (size : Nat) (b : List Byte)
    (hb : size ≤ b.length) (hs : s.length + p + 1 < size) :
    ∃ ds : List Nat, ds.length = p ∧ (∀ d ∈ ds, d < 10) ∧ ofDigits 10 ds = v.toInt.natAbs % 10 ^ p ∧
      ulz_vsnprintf (some b) size (bytes! "%." ++ [BitVec.ofNat 8 (48 + p)] ++ bytes! "s%d" ++ 0 :: junk) [.str (some (s ++ 0 :: j)), .int v] cbuf =
        .ok (some (put b 0 (s ++ (if v.toInt < 0 then [ch '-'] else []) ++ ds.map (fun d => BitVec.ofNat 8 (48 + d)) ++ [0])),
          (s.length + if v.toInt < 0 then p + 1 else p : Nat)) := by
  have hlen : (padded 10 p v.toInt.natAbs).length = p := by simp [padded]
  have hlt : ∀ d ∈ padded 10 p v.toInt.natAbs, d < 10 := padded_lt (by decide) _ _
  refine ⟨padded 10 p v.toInt.natAbs, hlen, hlt, by rw [← padded_lowDigits]; exact Numbers.ofDigits_lowDigits 10 (by decide) _ _, ?_⟩
  have ht : numText 10 (by decide) false p v.toInt = (if v.toInt < 0 then [ch '-'] else []) ++ (padded 10 p v.toInt.natAbs).map (fun d => BitVec.ofNat 8 (48 + d)) := by
    unfold numText
    rw [if_neg (show ¬ p = 0 by omega), symbol_dec _ hlt]
  have hl2 : (numText 10 (by decide) false p v.toInt).length = if v.toInt < 0 then p + 1 else p := by
    rw [ht, List.length_append, List.length_map, hlen]
    split <;> simp <;> omega
  have e : cstr (s ++ 0 :: j) = s := by
    unfold cstr
    rw [List.takeWhile_append_of_pos]
    · simp
    · intro a ha
      simp only [decide_eq_true_eq]
      intro h
      exact hs0 (h ▸ ha)
  have hw : Spec.width [p] = p := by simp only [Spec.width, weigh, Nat.add_zero]; omega
  have hr : render 0 [.conv [[p]] .s, .conv [] .d] false [.str (some (s ++ 0 :: j)), .int v] = .text (s ++ numText 10 (by decide) false p v.toInt) := by
    have h1 : convText (pend [[p]] 0) .s [.str (some (s ++ 0 :: j)), .int v] = .text s p [.int v] := by
      rw [show pend [[p]] 0 = p from hw]
      simp only [convText]
      rw [if_pos (List.mem_append.2 (Or.inr (List.mem_cons_self ..))), e]
    rw [render, h1]
    simp only
    rw [render, show pend [] p = p from rfl, convText_dec p (by omega) .d (by simp) _ [] _ rfl]
    simp [render, Outcome.prepend]
  have hsp : spell [.conv [[p]] .s, .conv [] .d] = bytes! "%." ++ [BitVec.ofNat 8 (48 + p)] ++ bytes! "s%d" := by
    simp [spell, Item.spell, spellPrecs, Kind.spell, digit, ch]
  have := vsnprintf_correct (spell [.conv [[p]] .s, .conv [] .d]) junk [.conv [[p]] .s, .conv [] .d] false
    ⟨by intro i hi
        rcases List.mem_cons.1 hi with rfl | hi
        · intro ds hds; rw [List.mem_singleton] at hds; subst hds; exact ⟨by simp, by simp; omega⟩
        · rw [List.mem_singleton] at hi; subst hi; intro x hx; simp at hx, rfl⟩ (some b) size
    (fun b' hb' => by injection hb' with e; rw [← e]; exact hb) [.str (some (s ++ 0 :: j)), .int v] cbuf hc
  have hl3 : (s ++ numText 10 (by decide) false p v.toInt).length = s.length + if v.toInt < 0 then p + 1 else p := by
    rw [List.length_append, hl2]
  have hlt3 : (s ++ numText 10 (by decide) false p v.toInt).length < size := by rw [hl3]; split <;> omega
  rw [hr, hsp] at this
  simp only [Result] at this
  rw [if_neg (by intro h; subst h; simp at hb; omega), List.take_of_length_le (by omega),
    show min (s ++ numText 10 (by decide) false p v.toInt).length (size - 1) = (s ++ numText 10 (by decide) false p v.toInt).length by omega, hl3, ht, ← List.append_assoc s] at this
  exact this

/-! ### C94 -/

/-- C94: a format with an unsupported conversion behind items that print makes the call return −1, with the text so far stored
    but not terminated. -/
theorem vsnprintf_fails (s junk : List Byte) (is : List Item) (hp : Parses s is true) (dest : Option (List Byte)) (size : Nat)
    (hd : DestOk dest size) (args : List Arg) (cbuf : List Byte) (hc : cbuf.length = 32) (t : List Byte) (ht : render 0 is false args = .text t) :
    ulz_vsnprintf dest size (s ++ 0 :: junk) args cbuf = .ok (dest.map fun b => put b 0 (t.take (size - 1)), -1) := by
  have key : ∀ (is : List Item) (w : Nat) (args : List Arg) (t : List Byte), render w is false args = .text t → render w is true args = .fail t := by
    intro is
    induction is with
    | nil => intro w args t h; simp only [render, Bool.false_eq_true, if_false] at h; injection h with h; subst h; rfl
    | cons i is ih =>
      intro w args t h
      have pre : ∀ (u : List Byte) (w : Nat) (args : List Arg), (render w is false args).prepend u = .text t → (render w is true args).prepend u = .fail t := by
        intro u w args h
        cases hr : render w is false args with
        | text t' =>
          rw [hr] at h
          injection h with h
          rw [ih w args t' hr, ← h]; rfl
        | fail t' => rw [hr] at h; simp [Outcome.prepend] at h
        | undef => rw [hr] at h; simp [Outcome.prepend] at h
      cases i with
      | lit c => rw [render] at h ⊢; exact pre _ _ _ h
      | conv ps k =>
        rw [render] at h ⊢
        cases hcv : convText (pend ps w) k args with
        | text u w' args' => rw [hcv] at h; exact pre _ _ _ h
        | fail => rw [hcv] at h; simp at h
        | undef => rw [hcv] at h; simp at h
  have := vsnprintf_correct s junk is true hp dest size hd args cbuf hc
  rw [key is 0 args t ht] at this
  exact this

example (cbuf : List Byte) (hc : cbuf.length = 32) :
    ulz_vsnprintf (some [9, 9, 9, 9]) 4 (bytes! "ab%5d" ++ [0]) [.int 1] cbuf = .ok (some (bytes! "ab" ++ [9, 9]), -1) :=
  vsnprintf_fails (bytes! "ab%5d") [] [.lit (ch 'a'), .lit (ch 'b')] ⟨by simp [Item.Ok]; decide, bytes! "5d" ++ [0], rfl, .char (by decide)⟩ (some [9, 9, 9, 9]) 4
    (fun b hb => by injection hb with e; simp [← e]) [.int 1] cbuf hc (bytes! "ab") rfl

end Ulz.Props

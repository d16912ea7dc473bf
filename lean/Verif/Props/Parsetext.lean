import Verif.Proofs.Parsetext
import Verif.Props.Ipv4
/-! Property theorems about reading numbers and addresses from arbitrary text. -/
namespace Ulz.Props
open Ulz.Parsetext Ulz.Parsetext.Spec Ulz.Numbers
open Ulz.Text (isnumericipv4 ipv4fromstring)
open Ulz.Text.Spec (pieces digit)
open Ulz.Numbers (strtoint strtoint64)

theorem minus_cases (s : List Byte) : (∃ g, s = ch '-' :: g ∧ minus s = true ∧ body s = g) ∨
    (minus s = false ∧ body s = s ∧ (s = [] ∨ ∃ c g, s = c :: g ∧ c ≠ ch '-')) := by
  cases s with
  | nil => exact .inr ⟨rfl, rfl, .inl rfl⟩
  | cons c g =>
    by_cases h : c = ch '-'
    · subst h
      exact .inl ⟨g, rfl, rfl, rfl⟩
    · have hm : minus (c :: g) = false := by simp [minus, h]
      exact .inr ⟨hm, by simp [body, hm], .inr ⟨c, g, rfl, h⟩⟩

/-- C186: `strtoint64` on an arbitrary text. Behind an optional minus sign every character counts as a digit, with its distance from
    '0' as its value. Up to 17 characters there is no undefined behaviour, with 19 and more there always is; with 18 exactly if
    the first character alone or the number is below -2^63, or the negation of -2^63 is taken. Otherwise the result is the number. -/
theorem strtoint64_text (s rest : List Byte) :
    strtoint64 (s ++ rest) s.length =
      if 19 ≤ (body s).length ∨
        (body s).length = 18 ∧ (first s < -92 ∨ value (body s) < -2^63 ∨ minus s = true ∧ value (body s) = -2^63) then .error .overflow
      else .ok (if minus s then -value (body s) else value (body s)) := by
  have hsmall : ∀ g : List Byte, g.length ≤ 17 → -2^63 < value g := by
    intro g hg
    have h := (step64 [] [] 0 0 rfl g.length g 0 0 rfl (by omega) (by omega) (by omega)).2.1
    simp only [Nat.zero_add, Int.pow_zero, Int.mul_one, Int.zero_add] at h
    have := pow10_le hg
    omega
  have h63 : (-2 : Int)^63 = -9223372036854775808 := by decide
  rcases minus_cases s with ⟨g, rfl, hm, hb⟩ | ⟨hm, hb, hs⟩
  · have hf : first (ch '-' :: g) = (g.head?.map fun c => c.toInt - 48).getD 0 := by unfold first; rw [hb]
    have h := loop64 [ch '-'] g rest
    rw [show [ch '-'] ++ g ++ rest = ch '-' :: (g ++ rest) by simp, show [ch '-'].length = 1 from rfl] at h
    rw [hb, hf, hm]
    unfold strtoint64
    rw [if_neg (by simp), List.cons_append, rd_cons_zero]
    rw [ok_bind, if_pos rfl, List.length_cons, Nat.add_sub_cancel, h]
    by_cases h1 : 19 ≤ g.length ∨ g.length = 18 ∧ ((g.head?.map fun c => c.toInt - 48).getD 0 < -92 ∨ value g < -9223372036854775808)
    · rw [if_pos h1, if_pos (by omega)]; rfl
    · rw [if_neg h1, ok_bind]
      by_cases h2 : g.length = 18 ∧ value g = -2^63
      · rw [if_pos (.inr ⟨h2.1, .inr (.inr ⟨rfl, h2.2⟩)⟩), h2.2]; rfl
      · have hn : value g ≤ 9 * 10^18 ∧ -9223372036854775808 < value g := by
          have hle : g.length ≤ 18 := by omega
          by_cases h17 : g.length ≤ 17
          · have hx := (step64 [] [] 0 0 rfl g.length g 0 0 rfl (by omega) (by omega) (by omega)).2
            simp only [Nat.zero_add, Int.pow_zero, Int.mul_one, Int.zero_add] at hx
            have := pow10_le h17
            have := hsmall g h17
            omega
          · have h18 : g.length = 18 := by omega
            clear h hf hm hb
            revert h1 h2
            match g, h18 with
            | c :: g, h18 =>
              intro h1 h2
              simp only [List.head?_cons, Option.map_some, Option.getD_some] at h1
              have hl : g.length = 17 := by simpa using h18
              have hx := (step64 [] [] 0 0 rfl 17 g 0 0 hl (by omega) (by omega) (by omega)).2
              simp only [Nat.zero_add, Int.pow_zero, Int.mul_one, Int.zero_add] at hx
              have hv := value_cons c g
              rw [hl] at hv
              have h10 : (10:Int)^17 = 100000000000000000 := by decide
              rw [h10] at hv hx
              have hc := char_bounds c
              have : ¬ value (c :: g) = -2^63 := fun hh => h2 ⟨h18, hh⟩
              omega
        rw [i64_ok (by omega) (by omega), if_neg (by simp only [true_and]; omega)]
        rfl
  · rw [hb, hm]
    have h := loop64 [] s rest
    rw [show [] ++ s ++ rest = s ++ rest by simp, show ([] : List Byte).length = 0 from rfl] at h
    have hf : first s = (s.head?.map fun c => c.toInt - 48).getD 0 := by unfold first; rw [hb]
    rw [hf]
    rcases hs with rfl | ⟨c, g, rfl, hc⟩
    · rfl
    · unfold strtoint64
      rw [if_neg (by simp), List.cons_append, rd_cons_zero]
      simp only [ok_bind]
      rw [if_neg hc, ← List.cons_append, h]
      by_cases h1 : 19 ≤ (c :: g).length ∨ (c :: g).length = 18 ∧ (((c :: g).head?.map fun c => c.toInt - 48).getD 0 < -92 ∨ value (c :: g) < -9223372036854775808)
      · rw [if_pos h1, if_pos (by omega)]
      · rw [if_neg h1, if_neg (by simp only [Bool.false_eq_true, false_and, or_false]; omega)]
        rfl

/-- C186: `strtoint` on an arbitrary text: the same, but the number is reduced to 32 bits. Undefined are 19 characters and more, 18
    characters with a first one below '0' by more than 92, and the negation of -2^31. -/
theorem strtoint_text (s rest : List Byte) :
    strtoint (s ++ rest) s.length =
      if 19 ≤ (body s).length ∨ (body s).length = 18 ∧ first s < -92 ∨ minus s = true ∧ (value (body s)).bmod (2^32) = -2^31 then
        .error .overflow
      else .ok (if minus s then -(value (body s)).bmod (2^32) else (value (body s)).bmod (2^32)) := by
  rcases minus_cases s with ⟨g, rfl, hm, hb⟩ | ⟨hm, hb, hs⟩
  · have hf : first (ch '-' :: g) = (g.head?.map fun c => c.toInt - 48).getD 0 := by unfold first; rw [hb]
    have h := loop32 [ch '-'] g rest
    rw [show [ch '-'] ++ g ++ rest = ch '-' :: (g ++ rest) by simp, show [ch '-'].length = 1 from rfl] at h
    rw [hb, hf, hm]
    unfold strtoint
    rw [if_neg (by simp), List.cons_append, rd_cons_zero]
    rw [ok_bind, if_pos rfl, List.length_cons, Nat.add_sub_cancel, h]
    by_cases h1 : 19 ≤ g.length ∨ g.length = 18 ∧ (g.head?.map fun c => c.toInt - 48).getD 0 < -92
    · rw [if_pos h1, if_pos (by omega)]; rfl
    · rw [if_neg h1, ok_bind]
      by_cases h2 : (value g).bmod (2^32) = -2^31
      · rw [if_pos (show (value g).bmod (2^32) = -2147483648 by rw [h2]; rfl), if_pos (.inr (.inr ⟨rfl, h2⟩))]
      · rw [if_neg (show ¬ (value g).bmod (2^32) = -2147483648 by omega), if_neg (by simp only [true_and]; omega)]
        rfl
  · rw [hb, hm]
    have h := loop32 [] s rest
    rw [show [] ++ s ++ rest = s ++ rest by simp, show ([] : List Byte).length = 0 from rfl] at h
    have hf : first s = (s.head?.map fun c => c.toInt - 48).getD 0 := by unfold first; rw [hb]
    rw [hf]
    rcases hs with rfl | ⟨c, g, rfl, hc⟩
    · rfl
    · unfold strtoint
      rw [if_neg (by simp), List.cons_append, rd_cons_zero]
      simp only [ok_bind]
      rw [if_neg hc, ← List.cons_append, h]
      by_cases h1 : 19 ≤ (c :: g).length ∨ (c :: g).length = 18 ∧ ((c :: g).head?.map fun c => c.toInt - 48).getD 0 < -92
      · rw [if_pos h1, if_pos (by omega)]
      · rw [if_neg h1, if_neg (by simp only [Bool.false_eq_true, false_and, or_false]; omega)]
        rfl

example : strtoint (bytes! "12a") 3 = .ok 169 ∧ strtoint (bytes! "+5") 2 = .ok (-45) ∧ strtoint (bytes! "4294967297") 10 = .ok 1 ∧
    strtoint64 (bytes! "--1") 3 = .ok 29 ∧ strtoint64 [] 0 = .ok 0 := by decide +kernel
example : strtoint64 (0x80 :: bytes! "00000000000000000") 18 = .error .overflow := by decide +kernel

theorem pieces_flatten (s : List Byte) : (pieces s).flatten = s.filter (· ≠ 46) ∧ (pieces s).length = s.count 46 + 1 := by
  induction s with
  | nil => exact ⟨rfl, rfl⟩
  | cons c s ih =>
    by_cases h : c = 46
    · subst h
      have e : pieces (46 :: s) = [] :: pieces s := by rw [pieces]; rfl
      rw [e]
      refine ⟨by simp [ih.1], by simp [ih.2]⟩
    · have hne := Text.pieces_ne_nil s
      obtain ⟨g, gs, hg⟩ := List.exists_cons_of_ne_nil hne
      have e : pieces (c :: s) = (c :: g) :: gs := by rw [pieces, if_neg h, hg]
      rw [hg] at ih
      rw [e]
      refine ⟨?_, ?_⟩
      · have := ih.1
        simp only [List.flatten_cons, List.cons_append] at this ⊢
        rw [this, List.filter_cons_of_pos (by simpa using h)]
      · rw [List.count_cons_of_ne (by simpa using h)]
        simpa using ih.2

/-- C186: every text that `isnumericipv4` accepts is converted by `ipv4fromstring` without undefined behaviour: the text has four
    parts of digits between its dots, each part gives its number modulo 256 (an empty last part gives 0), and the result is 1. -/
theorem ipv4_accepted (s junk junk' out : List Byte) (h0 : 0 ∉ s) (hout : 4 ≤ out.length)
    (h : isnumericipv4 (s ++ 0 :: junk) = .ok 1) :
    (pieces s).length = 4 ∧ (∀ g ∈ pieces s, g.length ≤ 12 ∧ ∀ c ∈ g, digit c) ∧
      ipv4fromstring (s ++ 0 :: junk') out = .ok (put out 0 ((pieces s).map fun g => BitVec.ofInt 8 (value g)), 1) := by
  obtain ⟨r, hr, _, hiff⟩ := isnumericipv4_iff s junk h0
  rw [h] at hr
  injection hr with hr
  subst hr
  obtain ⟨hall, -, -, hcnt, -, hmax⟩ := hiff.1 rfl
  obtain ⟨hfl, hlen⟩ := pieces_flatten s
  rw [hcnt] at hlen
  have hd : ∀ g ∈ pieces s, ∀ c ∈ g, digit c := by
    intro g hg c hc
    have hm : c ∈ (pieces s).flatten := List.mem_flatten.2 ⟨g, hg, hc⟩
    rw [hfl, List.mem_filter] at hm
    rcases hall c hm.1 with h | h
    · exact h
    · exact absurd h (by simpa using hm.2)
  have hl : ∀ g ∈ pieces s, g.length ≤ 12 := by
    intro g hg
    have h1 : g.length ≤ (pieces s).flatten.length := (List.sublist_flatten_of_mem hg).length_le
    rw [hfl] at h1
    have h2 : (s.filter (· ≠ 46)).length ≤ s.countP (fun c => decide (digit c)) := by
      rw [← List.countP_eq_length_filter]
      refine List.countP_mono_left fun c hc hne => ?_
      rcases hall c hc with h | h
      · simpa using h
      · exact absurd h (by simpa using hne)
    omega
  refine ⟨hlen, fun g hg => ⟨hl g hg, hd g hg⟩, ?_⟩
  rw [ipv4fromstring_pieces s junk' out h0 hout, List.take_of_length_le (by omega), if_pos (by omega)]
  have hone : ∀ g ∈ pieces s, strtoint g g.length = .ok ((value g).bmod (2^32)) := by
    intro g hg
    have hb : body g = g ∧ minus g = false := by
      rcases minus_cases g with ⟨g', rfl, _, _⟩ | ⟨hm, hb, _⟩
      · exact absurd (hd _ hg (ch '-') (by simp)) (by decide)
      · exact ⟨hb, hm⟩
    have ht := strtoint_text g []
    have := hl g hg
    rw [hb.1, hb.2, List.append_nil, if_neg (by simp only [Bool.false_eq_true, false_and, or_false]; omega)] at ht
    simpa using ht
  have hmap : ∀ l : List (List Byte), (∀ g ∈ l, strtoint g g.length = .ok ((value g).bmod (2^32))) →
      l.mapM (fun g => strtoint g g.length) = (.ok (l.map fun g => (value g).bmod (2^32)) : C _) := by
    intro l
    induction l with
    | nil => intro _; rfl
    | cons g l ih =>
      intro hh
      rw [List.mapM_cons, hh g (by simp), ok_bind, ih fun g hg => hh g (by simp [hg]), ok_bind]
      rfl
  rw [hmap _ hone, ok_bind, List.map_map]
  have he : (BitVec.ofInt 8 ∘ fun g => (value g).bmod (2^32)) = fun g => BitVec.ofInt 8 (value g) := by
    funext g
    show BitVec.ofInt 8 ((value g).bmod (2^32)) = _
    apply BitVec.eq_of_toInt_eq
    rw [BitVec.toInt_ofInt, BitVec.toInt_ofInt, Int.bmod_bmod_of_dvd (by decide)]
  rw [he]
  rfl

example : isnumericipv4 (bytes! "256.1.12." ++ [0]) = .ok 1 ∧
    ipv4fromstring (bytes! "256.1.12." ++ [0]) [9, 9, 9, 9, 7] = .ok ([0, 1, 12, 0, 7], 1) := by decide +kernel

end Ulz.Props

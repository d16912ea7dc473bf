import Verif.Proofs.Stringptr
/-! C44–C48, C84–C86: stringptr and kvlist. `Holds p s` (Verif.Spec.Stringptr) says that the stringptr `p`
    holds the text `s`; nothing is assumed about the memory behind the text unless stated. -/
namespace Ulz.Props
open Ulz.Stringptr Ulz.Stringptr.Spec

/-- C45: `stringptr_eq` compares contents. -/
theorem stringptr_eq_correct (a b : SP) (x y : List Byte) (ha : Holds a x) (hb : Holds b y) :
    Stringptr.eq (some a) (some b) = .ok (decide (x = y)) := eq_spec ha hb

/-- C45: `stringptr_eq` with NULL arguments. -/
theorem stringptr_eq_null (a : Option SP) :
    Stringptr.eq a none = .ok a.isNone ∧ Stringptr.eq none a = .ok a.isNone := by
  cases a <;> exact ⟨rfl, rfl⟩

example : Holds ⟨bytes! "abcd", 3⟩ (bytes! "abc") ∧ Holds ⟨bytes! "abcx", 3⟩ (bytes! "abc") ∧
    Stringptr.eq (some ⟨bytes! "abcd", 3⟩) (some ⟨bytes! "abcx", 3⟩) = .ok true ∧
    Stringptr.eq (some ⟨bytes! "abcd", 4⟩) (some ⟨bytes! "abcx", 4⟩) = .ok false :=
  ⟨⟨rfl, bytes! "d", rfl⟩, ⟨rfl, bytes! "x", rfl⟩, by decide +kernel, by decide +kernel⟩

/-- C45: `stringptr_contains` is the substring test, and reads only the two texts. -/
theorem stringptr_contains_correct (h n : SP) (x y : List Byte) (hh : Holds h x) (hn : Holds n y) (hx : x.length < 2^64) :
    ∃ r, contains h n = .ok r ∧ (r = true ↔ ∃ a b, x = a ++ y ++ b) := by
  obtain ⟨r, h1, h2⟩ := contains_spec hh hn hx
  refine ⟨r, h1, h2.trans ?_⟩
  constructor
  · rintro ⟨a, b, e⟩; exact ⟨a, b, e.symm⟩
  · rintro ⟨a, b, e⟩; exact ⟨a, b, e.symm⟩

example : contains ⟨bytes! "hello", 5⟩ ⟨bytes! "llo!", 3⟩ = .ok true ∧
    contains ⟨bytes! "hello!", 5⟩ ⟨bytes! "lo!", 3⟩ = .ok false := by decide +kernel

/-- C45: `stringptr_here` is true exactly when the needle is at position `pos`, up to the size. -/
theorem stringptr_here_correct (h n : SP) (x y : List Byte) (hh : Holds h x) (hn : Holds n y) (hx : x.length < 2^64)
    (pos : Nat) (hp : pos ≤ x.length) :
    ∃ r, here h pos n = .ok r ∧ (r = true ↔ ∃ a b, x = a ++ y ++ b ∧ a.length = pos) := by
  refine ⟨_, here_spec hh hn hx hp, ?_⟩
  rw [decide_eq_true_iff]
  constructor
  · rintro ⟨t, e⟩
    exact ⟨x.take pos, t, by rw [List.append_assoc, e, List.take_append_drop], by simp; omega⟩
  · rintro ⟨a, b, rfl, rfl⟩
    simp

/-- C45, the bound on `pos` is needed: behind the end the length check wraps around and the memory behind
    the text is compared, which is an access outside the object if that is no longer than the text. -/
theorem stringptr_here_past_end (x y k : List Byte) (pos : Nat) (hp : x.length < pos) (hy : y ≠ [])
    (h64 : pos - x.length + y.length ≤ 2^64) (hx : pos < 2^64) :
    here ⟨x, x.length⟩ pos ⟨y ++ k, y.length⟩ = .error .oobRead := by
  unfold here memEq
  have h1 : y.length ≤ sztSub x.length pos := by unfold sztSub; omega
  simp only
  rw [if_pos h1, rdN_prefix rfl]
  simp only [ok_bind]
  unfold rdN
  rw [if_neg (by omega)]
  rfl

example : here ⟨bytes! "ab", 2⟩ 3 ⟨bytes! "b", 1⟩ = .error .oobRead :=
  stringptr_here_past_end (bytes! "ab") (bytes! "b") [] 3 (by decide) (by decide) (by decide) (by decide)

/-- C45, C46, C86: on platforms with a 32-bit and with a 64-bit `uint_fast32_t`, `stringptr_hash` is the ELF
    hash of the text. -/
theorem stringptr_hash_is_elf (w : Nat) (hw : w = 32 ∨ w = 64) (p : SP) (s : List Byte) (hp : Holds p s) :
    hash w p = .ok (BitVec.ofNat 32 (elfHash s)) := hash_spec hw hp

/-- C45: equal texts have equal hashes, below 2^28. -/
theorem stringptr_hash_congr (w : Nat) (hw : w = 32 ∨ w = 64) (p q : SP) (s : List Byte) (hp : Holds p s) (hq : Holds q s) :
    hash w p = hash w q ∧ ∃ h, hash w p = .ok h ∧ h.toNat < 2^28 := by
  refine ⟨by rw [hash_spec hw hp, hash_spec hw hq], _, hash_spec hw hp, ?_⟩
  have := elf_lt s 0 (by decide)
  simp only [elfHash, BitVec.toNat_ofNat]
  omega

/-- C46: the hash does not depend on the width of `uint_fast32_t`. -/
theorem stringptr_hash_width_independent (p : SP) (s : List Byte) (hp : Holds p s) : hash 32 p = hash 64 p := by
  rw [hash_spec (Or.inl rfl) hp, hash_spec (Or.inr rfl) hp]

example : hash 64 ⟨bytes! "printf", 6⟩ = .ok 0x77905a6 ∧ elfHash (bytes! "printf") = 0x77905a6 ∧
    hash 32 ⟨bytes! "a long text with more than seven bytes\xff\xff", 42⟩ =
      hash 64 ⟨bytes! "a long text with more than seven bytes\xff\xff", 42⟩ := by decide +kernel

/-- C47: `stringptr_shiftright` drops `count` bytes from the front, or does nothing and returns 0. -/
theorem stringptr_shiftright_correct (p : SP) (s : List Byte) (hp : Holds p s) (count : Nat) :
    if count ≤ s.length then (shiftright p count).2 = 1 ∧ Holds (shiftright p count).1 (s.drop count)
    else shiftright p count = (p, 0) := by
  obtain ⟨j, rfl⟩ := holds_iff.1 hp
  unfold shiftright
  simp only [ge_iff_le]
  split
  · refine ⟨rfl, by simp, ?_⟩
    rename_i h
    simp only
    rw [List.drop_append_of_le_length h]
    exact ⟨j, rfl⟩
  · rfl

/-- C47: `stringptr_shiftleft` drops `count` bytes from the back and terminates the rest, or does nothing
    and returns 0. There must be room for the terminator: a byte behind the text when `count` is 0. -/
theorem stringptr_shiftleft_correct (s junk : List Byte) (count : Nat) (hj : 0 < count ∨ junk ≠ []) :
    shiftleft ⟨s ++ junk, s.length⟩ count =
      if count ≤ s.length then
        .ok (⟨s.take (s.length - count) ++ 0 :: (s.drop (s.length - count) ++ junk).tail, s.length - count⟩, 1)
      else .ok (⟨s ++ junk, s.length⟩, 0) := by
  split
  · rename_i h
    have hl : (s.drop (s.length - count)).length = count := by simp; omega
    have := shiftleft_spec (s := s.take (s.length - count)) (t := s.drop (s.length - count)) (junk := junk)
      (by rcases hj with h | h
          · left; intro e; rw [e] at hl; simp at hl; omega
          · exact Or.inr h)
    rw [List.take_append_drop, hl] at this
    rw [this]
    simp
  · rename_i h
    unfold shiftleft
    simp only
    rw [if_neg (by omega)]
    rfl

/-- C47: without that byte, shifting by 0 writes behind the object. -/
theorem stringptr_shiftleft_zero_needs_room (s : List Byte) : shiftleft ⟨s, s.length⟩ 0 = .error .oobWrite := by
  simp [shiftleft, wr]

example : shiftleft ⟨bytes! "abc", 3⟩ 1 = .ok (⟨bytes! "ab" ++ [0], 2⟩, 1) ∧
    shiftleft ⟨bytes! "abcd", 3⟩ 4 = .ok (⟨bytes! "abcd", 3⟩, 0) := by decide +kernel

/-- C47: `stringptr_chomp` removes exactly the longest suffix of CR and LF bytes, overwrites it with zero
    bytes and returns its length. -/
theorem stringptr_chomp_correct (s junk : List Byte) :
    ∃ t tail, s = t ++ tail ∧ (∀ c ∈ tail, c = ch '\r' ∨ c = ch '\n') ∧
      (∀ c, t.getLast? = some c → c ≠ ch '\r' ∧ c ≠ ch '\n') ∧
      chomp ⟨s ++ junk, s.length⟩ = .ok (⟨t ++ List.replicate tail.length 0 ++ junk, t.length⟩, tail.length) := by
  obtain ⟨t, tail, h1, h2, h3, h4⟩ := chompLoop_spec (s.length + 1) s junk 0 (by omega)
  refine ⟨t, tail, h1, fun c hc => ?_, fun c hc => ?_, by unfold chomp; rw [h4, Nat.zero_add]⟩
  · have := h2 c hc
    simp only [islb, Bool.or_eq_true, decide_eq_true_eq] at this
    exact this.symm
  · have := h3 c hc
    simp only [islb, Bool.or_eq_false_iff, decide_eq_false_iff_not] at this
    exact ⟨this.2, this.1⟩

example : chomp ⟨bytes! "a\nb\r\n\n!", 6⟩ = .ok (⟨bytes! "a\nb" ++ [0, 0, 0] ++ bytes! "!", 3⟩, 3) := by decide +kernel

/-- C47: `stringptr_rchr` returns the last position of a byte that, as a signed char, equals the int. -/
theorem stringptr_rchr_correct (s junk : List Byte) (needle : Int) :
    ∃ r, rchr (some ⟨s ++ junk, s.length⟩) needle = .ok r ∧
      match r with
      | some k => ∃ h : k < s.length, s[k].toInt = needle ∧ ∀ m (hm : m < s.length), k < m → s[m].toInt ≠ needle
      | none => ∀ m (hm : m < s.length), s[m].toInt ≠ needle := by
  unfold rchr
  simp only
  split
  · rename_i h
    exact ⟨none, rfl, by intro m hm; omega⟩
  · obtain ⟨r, h1, h2⟩ := rchrLoop_spec (s := s) (junk := junk) needle s.length (by omega)
    refine ⟨r, h1, ?_⟩
    split at h2
    · obtain ⟨a, b, _, d⟩ := h2
      exact ⟨a, b, fun m hm hk => d m hm hk hm⟩
    · exact fun m hm => h2 m hm hm

/-- C47: a byte value above 127 given as a positive int is never found, even if the text contains it. -/
theorem stringptr_rchr_high_byte (s junk : List Byte) (needle : Int) (hn : 127 < needle) :
    rchr (some ⟨s ++ junk, s.length⟩) needle = .ok none := by
  obtain ⟨r, h1, h2⟩ := stringptr_rchr_correct s junk needle
  rw [h1]
  match r, h2 with
  | none, _ => rfl
  | some k, h2 =>
    obtain ⟨h, e, _⟩ := h2
    have := BitVec.toInt_lt (x := s[k])
    simp at this
    omega

example : rchr (some ⟨bytes! "a/b/c", 5⟩) 47 = .ok (some 3) ∧ rchr (some ⟨[0xe4], 1⟩) 0xe4 = .ok none ∧
    rchr (some ⟨[0xe4], 1⟩) (-28) = .ok (some 0) ∧ rchr none 47 = .ok none := by decide +kernel

/-- C48: `stringptr_copy` gives a fresh string with exactly the text and a terminator. -/
theorem stringptr_copy_correct (f : Nat → Byte) (p : SP) (s : List Byte) (hp : Holds p s) (hs : s.length + 17 < 2^64) :
    copy (some f) (some p) = .ok (some ⟨s ++ [0], s.length⟩) := by
  obtain ⟨j, rfl⟩ := holds_iff.1 hp
  exact copy_spec hs

/-- C48: `stringptr_copy` dereferences NULL when the allocation fails, instead of returning NULL. -/
theorem stringptr_copy_out_of_memory (p : SP) : copy none (some p) = .error .nullDeref := rfl

/-- C48: `stringptr_strdup` gives a fresh C string with exactly the text and a terminator, or NULL. -/
theorem stringptr_strdup_correct (a : Alloc) (p : SP) (s : List Byte) (hp : Holds p s) (hs : s.length + 1 < 2^64) :
    strdup a (some p) = .ok (a.map fun _ => s ++ [0]) := by
  obtain ⟨j, rfl⟩ := holds_iff.1 hp
  cases a with
  | none => rfl
  | some f => exact strdup_spec hs

/-- C48: `stringptr_concat` gives a fresh string with the concatenation and a terminator, or NULL. -/
theorem stringptr_concat_correct (a : Alloc) (p : SP) (l : List SP) (s : List Byte) (ss : List (List Byte))
    (hp : Holds p s) (hl : HoldsAll l ss) (hs : (s ++ ss.flatten).length + 17 < 2^64) :
    concat a p l = .ok (a.map fun _ => ⟨s ++ ss.flatten ++ [0], (s ++ ss.flatten).length⟩) := by
  cases a with
  | none => rfl
  | some f => exact concat_spec (f := f) hp hl hs

example : concat (some fun _ => 7) ⟨bytes! "ab!", 2⟩ [⟨bytes! "?", 0⟩, ⟨bytes! "cd", 2⟩] =
    .ok (some ⟨bytes! "abcd" ++ [0], 4⟩) := by decide +kernel

/-- C85: `stringptr_new` gives a terminated string of the wanted size whose buffer ends at the
    terminator, as long as the size plus 17 does not overflow. -/
theorem stringptr_new_correct (f : Nat → Byte) (n : Nat) (h : n + 17 < 2^64) :
    ∃ b, new (some f) n = .ok (some ⟨b ++ [0], n⟩) ∧ b.length = n := new_spec h

/-- C85: for larger sizes the allocation size wraps around and the terminator is written outside of it. -/
theorem stringptr_new_overflow (f : Nat → Byte) (n : Nat) (h : 2^64 ≤ n + 17) (hn : n < 2^64) :
    new (some f) n = .error .oobWrite := by
  obtain ⟨o, h1, h2⟩ := malloc_some (f := f) (n := szt (16 + n + 1))
  have : szt (16 + n + 1) < 17 := by unfold szt; omega
  unfold new
  rw [h1]
  simp only
  unfold wr
  rw [if_neg (by simp; omega)]
  rfl

/-- C44: `kv_find` returns 1 and stores the value of the first entry with that key, or returns 0 and
    stores nothing. -/
theorem kv_find_correct (l : List (SP × Nat)) (ks : List (List Byte)) (hl : HoldsAll (l.map Prod.fst) ks)
    (what : SP) (k : List Byte) (hw : Holds what k) (old : Nat) :
    (∃ v, kv_find (some l) (some what) (some old) = .ok (1, some v) ∧
      ∃ i : Nat, ks[i]? = some k ∧ (l[i]?.map Prod.snd) = some v ∧ ∀ j < i, ks[j]? ≠ some k) ∨
    (kv_find (some l) (some what) (some old) = .ok (0, some old) ∧ k ∉ ks) := by
  have key : (∃ v, kvLoop what l = .ok (some v) ∧
      ∃ i : Nat, ks[i]? = some k ∧ (l[i]?.map Prod.snd) = some v ∧ ∀ j < i, ks[j]? ≠ some k) ∨
      (kvLoop what l = .ok none ∧ k ∉ ks) := by
    induction l generalizing ks with
    | nil => cases hl; exact Or.inr ⟨rfl, by simp⟩
    | cons e l ih =>
      cases hl with
      | cons h1 h2 =>
        rename_i s ss
        unfold kvLoop
        rw [eq_spec hw h1]
        simp only [ok_bindE]
        by_cases hk : k = s
        · left
          refine ⟨e.2, by simp [hk], 0, by simp [hk], by simp, by intro j hj; omega⟩
        · simp only [hk, decide_false, Bool.false_eq_true, if_false]
          rcases ih ss h2 with ⟨v, h3, i, h4, h5, h6⟩ | ⟨h3, h4⟩
          · left
            refine ⟨v, h3, i + 1, by simpa using h4, by simpa using h5, fun j hj => ?_⟩
            cases j with
            | zero => simp; exact fun e => hk e.symm
            | succ j => simpa using h6 j (by omega)
          · right
            exact ⟨h3, by simp [hk, h4]⟩
  unfold kv_find
  simp only
  rcases key with ⟨v, h1, h2⟩ | ⟨h1, h2⟩
  · left; exact ⟨v, by rw [h1]; rfl, h2⟩
  · right; exact ⟨by rw [h1]; rfl, h2⟩

/-- C44: any NULL argument gives 0 and changes nothing. -/
theorem kv_find_null (l : Option (List (SP × Nat))) (w : Option SP) (v : Option Nat)
    (h : l = none ∨ w = none ∨ v = none) : kv_find l w v = .ok (0, v) := by
  rcases h with rfl | rfl | rfl
  · rfl
  · cases l <;> rfl
  · cases l <;> cases w <;> rfl

example : kv_find (some [(⟨bytes! "ab", 2⟩, 1), (⟨bytes! "xy", 1⟩, 2), (⟨bytes! "xz", 1⟩, 3)]) (some ⟨bytes! "x", 1⟩) (some 9) =
    .ok (1, some 2) := by decide +kernel

/-- C84: with `chomp`, `read_stdin_line` removes the last byte of the line `fgets` has read, whatever it
    is: right for a line that fits, but a line cut off by the buffer size (or by the end of the file)
    loses a byte of text. -/
theorem read_stdin_line_chomp (t junk : List Byte) (c : Byte) (h0 : 0 ∉ t ++ [c]) :
    read_stdin_line (some (t ++ [c] ++ 0 :: junk)) true = .ok ⟨t ++ 0 :: 0 :: junk, t.length⟩ := by
  unfold read_stdin_line fromchar
  simp only
  rw [Hex.strlen_cstr _ _ h0]
  simp only [ok_bind, if_true]
  have := shiftleft_spec (s := t) (t := [c]) (junk := 0 :: junk) (Or.inl (by simp))
  simp only [pure_eq_ok, ok_bind]
  rw [show (1 : Nat) = [c].length from rfl, this]
  rfl

/-- C84: without `chomp` it returns the whole line; at the end of the file a NULL string of size 0. -/
theorem read_stdin_line_keep (s junk : List Byte) (h0 : 0 ∉ s) :
    read_stdin_line (some (s ++ 0 :: junk)) false = .ok ⟨s ++ 0 :: junk, s.length⟩ ∧
    ∀ c, read_stdin_line none c = .ok ⟨[], 0⟩ := by
  refine ⟨?_, fun _ => rfl⟩
  unfold read_stdin_line fromchar
  simp only
  rw [Hex.strlen_cstr _ _ h0]
  rfl

/-- C84: `stringptr_fromchar` refers to the string given, in place, with the length of its text; NULL gives size 0, and an array
    without a terminator is read past its end. -/
theorem stringptr_fromchar_exact (b : List Byte) :
    fromchar none = .ok ⟨[], 0⟩ ∧
    (∀ s junk, 0 ∉ s → b = s ++ 0 :: junk → fromchar (some b) = .ok ⟨b, s.length⟩ ∧ Holds ⟨b, s.length⟩ s) ∧
    (0 ∉ b → fromchar (some b) = .error .oobRead) := by
  refine ⟨rfl, ?_, fun h => ?_⟩
  · rintro s junk h0 rfl
    refine ⟨?_, rfl, List.prefix_append _ _⟩
    unfold fromchar
    simp only
    rw [Hex.strlen_cstr _ _ h0]
    rfl
  · unfold fromchar
    simp only
    have hs : ∀ l : List Byte, 0 ∉ l → Hex.strlen l = .error .oobRead := by
      intro l
      induction l with
      | nil => intro _; rfl
      | cons a l ih =>
        intro hl
        rw [Hex.strlen, if_neg (fun e => hl (by rw [e]; exact List.mem_cons_self)), ih (fun e => hl (List.mem_cons_of_mem _ e))]
        rfl
    rw [hs b h]
    rfl

example : read_stdin_line (some (bytes! "abc" ++ [0])) true = .ok ⟨bytes! "ab" ++ [0, 0], 2⟩ := by decide +kernel

end Ulz.Props

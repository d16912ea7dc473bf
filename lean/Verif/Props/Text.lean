import Verif.Proofs.Text
/-! # C15 - C18: searching, character classes, strends, containsChar -/
set_option linter.unusedSimpArgs false
set_option linter.unusedVariables false
namespace Ulz.Props
open Text Text.Spec

/-! ### C15 -/

/-- **C15** `strstr_uc` on the text `s` and the needle `w` never leaves its arguments, and a returned
    pointer is a case-insensitive match inside the text. -/
theorem strstr_uc_sound (s junk w wjunk : List Byte) (h0 : 0 ∉ s) :
    ∃ r, strstr_uc (s ++ 0 :: junk) (w ++ wjunk) w.length = .ok r ∧
      ∀ p, r = some p → MatchAt UcEq s w p := by
  unfold strstr_uc
  by_cases hw : w = []
  · subst hw; exact ⟨none, rfl, by simp⟩
  · rw [if_neg (by simpa using hw)]
    obtain ⟨r, hr, h1, _⟩ := scan_main testUc w wjunk junk hw s [] 0 0 (by omega) (by omega)
      (by intro j h; omega) (by omega) h0
    refine ⟨r, hr, fun p hp => ?_⟩
    have := (h1 p hp).2
    rw [MatchAt_congr testUc_iff] at this
    simpa using this

/-- **C15** Same for `strstar`, where `*` in the needle matches any character. -/
theorem strstar_sound (s junk w wjunk : List Byte) (h0 : 0 ∉ s) :
    ∃ r, strstar (s ++ 0 :: junk) (w ++ wjunk) w.length = .ok r ∧
      ∀ p, r = some p → MatchAt StarEq s w p := by
  unfold strstar
  by_cases hw : w = []
  · subst hw; exact ⟨none, rfl, by simp⟩
  · rw [if_neg (by simpa using hw)]
    obtain ⟨r, hr, h1, _⟩ := scan_main testStar w wjunk junk hw s [] 0 0 (by omega) (by omega)
      (by intro j h; omega) (by omega) h0
    refine ⟨r, hr, fun p hp => ?_⟩
    have := (h1 p hp).2
    rw [MatchAt_congr testStar_iff] at this
    simpa using this

/-- **C15** If all needle characters are the same (in particular for one-character needles), the search
    is exact: a pointer is the first match, NULL means there is none. -/
theorem strstr_uc_exact_of_constant (s junk w wjunk : List Byte) (h0 : 0 ∉ s) (hw : w ≠ [])
    (hc : ∃ a, ∀ x ∈ w, x = a) :
    ∃ r, strstr_uc (s ++ 0 :: junk) (w ++ wjunk) w.length = .ok r ∧
      (∀ p, r = some p → MatchAt UcEq s w p ∧ ∀ q < p, ¬ MatchAt UcEq s w q) ∧
      (r = none → ∀ q, ¬ MatchAt UcEq s w q) := by
  unfold strstr_uc
  rw [if_neg (by simpa using hw)]
  obtain ⟨r, hr, h1, h2⟩ := scan_main testUc w wjunk junk hw s [] 0 0 (by omega) (by omega)
    (by intro j h; omega) (by omega) h0
  have h2 := h2 hc
  simp only [MatchAt_congr testUc_iff, List.nil_append] at h1 h2
  exact ⟨r, hr, fun p hp => ⟨(h1 p hp).2, fun q hq => h2.1 p hp q (by simp) hq⟩,
    fun hn q => h2.2 hn q (by simp)⟩

theorem strstar_exact_of_constant (s junk w wjunk : List Byte) (h0 : 0 ∉ s) (hw : w ≠ [])
    (hc : ∃ a, ∀ x ∈ w, x = a) :
    ∃ r, strstar (s ++ 0 :: junk) (w ++ wjunk) w.length = .ok r ∧
      (∀ p, r = some p → MatchAt StarEq s w p ∧ ∀ q < p, ¬ MatchAt StarEq s w q) ∧
      (r = none → ∀ q, ¬ MatchAt StarEq s w q) := by
  unfold strstar
  rw [if_neg (by simpa using hw)]
  obtain ⟨r, hr, h1, h2⟩ := scan_main testStar w wjunk junk hw s [] 0 0 (by omega) (by omega)
    (by intro j h; omega) (by omega) h0
  have h2 := h2 hc
  simp only [MatchAt_congr testStar_iff, List.nil_append] at h1 h2
  exact ⟨r, hr, fun p hp => ⟨(h1 p hp).2, fun q hq => h2.1 p hp q (by simp) hq⟩,
    fun hn q => h2.2 hn q (by simp)⟩

/-- A needle that is not constant splits as `a^(j+1) b t` with `b ≠ a`. -/
theorem not_constant_split : ∀ (w : List Byte) (a : Byte), (¬ ∀ x ∈ w, x = a) →
    ∃ j b t, w = List.replicate j a ++ b :: t ∧ b ≠ a
  | [], a, h => absurd (by simp) h
  | x :: w, a, h => by
    by_cases hx : x = a
    · obtain ⟨j, b, t, h1, h2⟩ := not_constant_split w a (by
        intro h'; apply h; intro y hy
        rcases List.mem_cons.1 hy with rfl | hy
        · exact hx
        · exact h' y hy)
      exact ⟨j + 1, b, t, by rw [h1, hx]; simp [List.replicate_succ], h2⟩
    · exact ⟨0, x, w, rfl, hx⟩

/-- **C15** Exact boundary of completeness: for needles the function is meant for (no lower-case letter,
    no zero byte), NULL implies absence for every text if and only if all needle characters are the
    same. For every other needle `w` there is a text containing it that the search misses. -/
theorem strstr_uc_complete_iff (w wjunk : List Byte) (hw : w ≠ []) (hup : ∀ x ∈ w, ¬ lower x) (hz : 0 ∉ w) :
    (∀ s junk p, 0 ∉ s → MatchAt UcEq s w p → strstr_uc (s ++ 0 :: junk) (w ++ wjunk) w.length ≠ .ok none) ↔
    (∃ a, ∀ x ∈ w, x = a) := by
  constructor
  · intro hall
    rcases Classical.em (∃ a, ∀ x ∈ w, x = a) with hc | hc
    · exact hc
    · exfalso
      match w, hw, hup, hz, hall, hc with
      | a :: w', hw, hup, hz, hall, hc =>
        obtain ⟨j, b, t, h1, h2⟩ := not_constant_split (a :: w') a (fun h => hc ⟨a, h⟩)
        generalize hwe : a :: w' = w at *
        have hj : 0 < j := by
          rcases Nat.eq_zero_or_pos j with hj | hj
          · subst hj; rw [h1] at hwe; simp at hwe; exact absurd hwe.1.symm h2
          · exact hj
        have haw : a ∈ w := by rw [← hwe]; simp
        have ha0 : a ≠ 0 := fun h => hz (h ▸ haw)
        have hupa : ∀ x ∈ w, up x = x := fun x hx => by unfold up; rw [if_neg (hup x hx)]
        -- the text a ++ w contains w at offset 1
        have hm : MatchAt UcEq (a :: w) w 1 := by
          refine ⟨by simp; omega, fun i hi => ⟨w[i], ?_, ?_⟩⟩
          · rw [Nat.add_comm, List.getElem?_cons_succ]; simp [hi]
          · exact hupa _ (List.getElem_mem _)
        apply hall (a :: w) [] 1 (by
          intro h; rcases List.mem_cons.1 h with h | h
          · exact ha0 h.symm
          · exact hz h) hm
        have hbt : 0 ∉ b :: t := fun h => hz (by rw [h1]; exact List.mem_append_right _ h)
        have hlen : w.length = j + (t.length + 1) := by rw [h1]; simp
        -- run of j characters `a`, then a mismatch, then a text that is too short
        have htext : a :: w ++ [0] = List.replicate j a ++ (a :: (b :: t ++ [0])) := by
          rw [h1, ← List.cons_append, ← List.replicate_succ, List.replicate_succ']
          simp
        unfold strstr_uc
        rw [if_neg (by omega), htext]
        rw [scan_run testUc w wjunk _ (List.replicate j a) 0 0 0 (by simp; omega)
          (by intro h; exact ha0 ((List.mem_replicate.1 h).2).symm)
          (by intro i hi hi2
              have hi' : i < j := by simpa using hi
              have : w[0 + i] = a := by
                simp only [Nat.zero_add, h1]
                rw [List.getElem_append_left (by simpa using hi')]; simp
              rw [this, testUc_iff]
              simp [UcEq, hupa a haw])]
        simp only [List.length_replicate, Nat.zero_add]
        rw [scan_eq, if_neg (by omega)]
        simp only [if_neg ha0]
        have hrd : rd (w ++ wjunk) j = .ok b := by
          rw [h1, List.append_assoc, rd_append_right (by simp)]; simp
        rw [hrd]
        simp only [ok_bind]
        have htf : ¬ testUc a b = true := by
          rw [testUc_iff]; unfold UcEq; rw [hupa a haw]; exact fun h => h2 h.symm
        rw [if_neg htf]
        obtain ⟨r, hr, h3, _⟩ := scan_main testUc w wjunk [] hw (b :: t) (List.replicate (j + 1) a) 0
          (if j = 0 then j else if True ∧ List.replicate j a ≠ [] then 0 else 0)
          (by omega) (by omega) (by intro j h; omega) (by omega) hbt
        rw [List.length_replicate] at hr
        rw [hr]
        cases hrc : r with
        | none => rfl
        | some p =>
          have h4 := h3 p hrc
          have h5 := h4.1
          have h6 := h4.2.1
          simp at h5 h6
          omega
  · rintro hc s junk p h0 hm he
    obtain ⟨r, hr, _, h2⟩ := strstr_uc_exact_of_constant s junk w wjunk h0 hw hc
    rw [hr] at he
    cases he
    exact h2 rfl p hm

example : strstr_uc (bytes! "xaBcd" ++ [0]) (bytes! "ABC") 3 = .ok (some 1) := by decide
example : strstr_uc (bytes! "aabc" ++ [0]) (bytes! "ABC") 3 = .ok none := by decide
example : strstar (bytes! "xaBcd" ++ [0]) (bytes! "B*d") 3 = .ok (some 2) := by decide

/-- **C15** A match at the very start of the text is always found. -/
theorem strstr_uc_finds_prefix (s junk w wjunk : List Byte) (h0 : 0 ∉ s) (hw : w ≠ [])
    (hm : MatchAt UcEq s w 0) : strstr_uc (s ++ 0 :: junk) (w ++ wjunk) w.length = .ok (some 0) := by
  unfold strstr_uc
  rw [if_neg (by simpa using hw)]
  have hl : w.length ≤ s.length := by have := hm.1; omega
  have e : s ++ 0 :: junk = s.take w.length ++ (s.drop w.length ++ 0 :: junk) := by
    rw [← List.append_assoc, List.take_append_drop]
  rw [e, scan_run testUc w wjunk _ (s.take w.length) 0 0 0 (by simp; omega)
    (fun h => h0 (List.mem_of_mem_take h)) (by
      intro j h1 h2
      obtain ⟨c, h3, h4⟩ := hm.2 j (by omega)
      rw [testUc_iff]
      have : (s.take w.length)[j] = c := by
        rw [List.getElem_take]
        rw [Nat.zero_add] at h3
        exact (List.getElem?_eq_some_iff.1 h3).2
      rw [this]; simpa using h4)]
  rw [scan_eq, if_pos (by simp; omega)]
  simp

example : MatchAt UcEq (bytes! "aBc") (bytes! "AB") 0 := by
  refine ⟨by decide, ?_⟩
  intro j h
  match j, h with
  | 0, _ => exact ⟨97, rfl, show up 97 = 65 by decide⟩
  | 1, _ => exact ⟨66, rfl, show up 66 = 66 by decide⟩

/-! ### C16 -/

/-- **C16** `findword` never leaves its arguments and always terminates; a returned pointer is a
    case-insensitive occurrence of the word followed by the end of the text or a separator. On the left
    there is the start of the text, a separator, or another occurrence one character earlier. -/
theorem findword_sound (s junk w wjunk : List Byte) (h0 : 0 ∉ s) :
    ∃ r, findword (s ++ 0 :: junk) (w ++ wjunk) w.length = .ok r ∧
      ∀ p, r = some p → MatchAt UcEq s w p ∧
        (p + w.length = s.length ∨ ∃ c, s[p + w.length]? = some c ∧ sepAfter c) ∧
        (p = 0 ∨ (∃ c, s[p - 1]? = some c ∧ sepBefore c) ∨ MatchAt UcEq s w (p - 1)) := by
  have hlead : ∀ c, isLeadingWhitespace c = true ↔ sepBefore c := by
    intro c
    unfold isLeadingWhitespace sepBefore
    rw [List.contains_iff_mem]; rfl
  have htrail : ∀ c, isTrailingWhitespace c = true ↔ sepAfter c := by
    intro c
    unfold isTrailingWhitespace sepAfter sepBefore
    rw [Bool.or_eq_true, List.contains_iff_mem, beq_iff_eq]; rfl
  have key : ∀ fuel base res, base ≤ s.length → res ≤ s.length → s.length + 1 - base ≤ fuel →
      (base = 0 ∨ MatchAt UcEq s w (base - 1)) →
      ∃ r, findwordLoop (s ++ 0 :: junk) (w ++ wjunk) w.length fuel base res = .ok r ∧
      ∀ p, r = some p → MatchAt UcEq s w p ∧
        (p + w.length = s.length ∨ ∃ c, s[p + w.length]? = some c ∧ sepAfter c) ∧
        (p = 0 ∨ (∃ c, s[p - 1]? = some c ∧ sepBefore c) ∨ MatchAt UcEq s w (p - 1)) := by
    intro fuel
    induction fuel with
    | zero => intro base res h1 h2 h3; omega
    | succ fuel ih =>
      intro base res hb hr hf hprev
      unfold findwordLoop
      rw [rd_ok (b := s ++ 0 :: junk) (i := res) (by simp; omega)]
      simp only [ok_bind]
      split
      · exact ⟨none, rfl, by simp⟩
      · rw [List.drop_append_of_le_length hb]
        obtain ⟨o, ho, hsnd⟩ := strstr_uc_sound (s.drop base) junk w wjunk (fun h => h0 (List.mem_of_mem_drop h))
        rw [ho]
        simp only [ok_bind]
        cases o with
        | none => exact ⟨none, rfl, by simp⟩
        | some o =>
          have hm := hsnd o rfl
          have hm1 := hm.1
          simp only [List.length_drop] at hm1
          have hmatch : MatchAt UcEq s w (base + o) := by
            refine ⟨by omega, fun j hj => ?_⟩
            obtain ⟨c, h1, h2⟩ := hm.2 j hj
            refine ⟨c, ?_, h2⟩
            rw [List.getElem?_drop] at h1
            rw [← h1]; congr 1; omega
          have hw : 0 < w.length := by
            rcases Nat.eq_zero_or_pos w.length with h | h
            · have : w = [] := List.eq_nil_of_length_eq_zero h
              subst this
              simp [strstr_uc] at ho
            · exact h
          have hnext : ∃ r, findwordLoop (s ++ 0 :: junk) (w ++ wjunk) w.length fuel (base + o + 1) (base + o) = .ok r ∧
              ∀ p, r = some p → MatchAt UcEq s w p ∧
              (p + w.length = s.length ∨ ∃ c, s[p + w.length]? = some c ∧ sepAfter c) ∧
              (p = 0 ∨ (∃ c, s[p - 1]? = some c ∧ sepBefore c) ∨ MatchAt UcEq s w (p - 1)) :=
            ih (base + o + 1) (base + o) (by omega) (by omega) (by omega) (.inr (by simpa using hmatch))
          have hright : ∃ c, rd (s ++ 0 :: junk) (base + o + w.length) = .ok c ∧
              ((c == 0 || isTrailingWhitespace c) = true →
                (base + o + w.length = s.length ∨ ∃ c, s[base + o + w.length]? = some c ∧ sepAfter c)) := by
            by_cases hend : base + o + w.length = s.length
            · exact ⟨0, by rw [hend, rd_append_right (by omega)]; simp, fun _ => .inl hend⟩
            · have hlt : base + o + w.length < s.length := by omega
              refine ⟨s[base + o + w.length], by rw [rd_append_left hlt, rd_ok hlt], fun h => .inr ⟨s[base + o + w.length], by simp [hlt], ?_⟩⟩
              have hne : s[base + o + w.length] ≠ 0 := fun h => h0 (h ▸ List.getElem_mem _)
              rw [Bool.or_eq_true, beq_iff_eq] at h
              rcases h with h | h
              · exact absurd h hne
              · exact (htrail _).1 h
          obtain ⟨c, hc, hcr⟩ := hright
          dsimp only
          by_cases ho0 : base + o = base
          · rw [if_pos ho0]
            simp only [pure_eq_ok, ok_bind, if_true, hc, Bool.true_and]
            split
            · rename_i hh
              refine ⟨_, rfl, ?_⟩
              intro p hp; cases hp
              refine ⟨hmatch, hcr hh, ?_⟩
              rcases hprev with h | h
              · left; omega
              · right; right; rw [ho0]; exact h
            · exact hnext
          · rw [if_neg ho0]
            have hlt : base + o - 1 < s.length := by omega
            rw [rd_append_left hlt, rd_ok hlt]
            simp only [pure_eq_ok, ok_bind]
            by_cases hl : isLeadingWhitespace s[base + o - 1] = true
            · rw [hl]
              simp only [if_true, hc, ok_bind, Bool.true_and]
              split
              · rename_i hh
                refine ⟨_, rfl, ?_⟩
                intro p hp; cases hp
                exact ⟨hmatch, hcr hh, .inr (.inl ⟨_, by simp [hlt], (hlead _).1 hl⟩)⟩
              · exact hnext
            · rw [Bool.not_eq_true] at hl
              rw [hl]
              simp only [Bool.false_eq_true, if_false, ok_bind, Bool.false_and]
              exact hnext
  exact key _ 0 0 (by omega) (by omega) (by simp <;> omega) (.inl rfl)

/-- **C16** For a word whose characters are not all the same, the left boundary is proper too. -/
theorem findword_left_boundary (s junk w wjunk : List Byte) (h0 : 0 ∉ s) (p : Nat)
    (hf : findword (s ++ 0 :: junk) (w ++ wjunk) w.length = .ok (some p))
    (hc : ¬ ∃ a, ∀ x ∈ w, x = a) : p = 0 ∨ ∃ c, s[p - 1]? = some c ∧ sepBefore c := by
  obtain ⟨r, hr, h⟩ := findword_sound s junk w wjunk h0
  rw [hf] at hr
  cases hr
  obtain ⟨h1, _, h2 | h2 | h2⟩ := h p rfl
  · exact .inl h2
  · exact .inr h2
  · by_cases hp : p = 0
    · exact .inl hp
    · exfalso
      apply hc
      have hstep : ∀ j, (h : j + 1 < w.length) → w[j + 1] = w[j] := by
        intro j h
        obtain ⟨c, a1, a2⟩ := h2.2 (j + 1) h
        obtain ⟨c', b1, b2⟩ := h1.2 j (by omega)
        rw [show p - 1 + (j + 1) = p + j by omega, b1] at a1
        cases a1
        exact a2.symm.trans b2
      have hall : ∀ j, (h : j < w.length) → w[j] = w[0]'(by omega) := by
        intro j
        induction j with
        | zero => intro h; rfl
        | succ j ih => intro h; rw [hstep j h]; exact ih (by omega)
      by_cases hw : w = []
      · subst hw; exact ⟨0, by simp⟩
      · refine ⟨w[0]'(List.length_pos_iff.2 hw), ?_⟩
        intro x hx
        obtain ⟨j, hj, rfl⟩ := List.mem_iff_getElem.1 hx
        exact hall j hj

example : findword (bytes! "xfoo foo-" ++ [0]) (bytes! "FOO") 3 = .ok (some 5) := by decide +kernel
/-- The guarantee on the left does fail for words of one repeated character. -/
theorem findword_left_boundary_fails : findword (bytes! "xAAA" ++ [0]) (bytes! "AA") 2 = .ok (some 2) := by
  decide +kernel

/-! ### C17 -/

/-- **C17** The classes are the ASCII ranges, and combine as their names say. -/
theorem char_classes (c : Byte) :
    (isUpper c = true ↔ upper c) ∧ (isLower c = true ↔ lower c) ∧ (isNumber c = true ↔ digit c) ∧
    (isLetter c = true ↔ upper c ∨ lower c) ∧ (isAlpha c = true ↔ upper c ∨ lower c ∨ digit c) ∧
    isLetter c = (isUpper c || isLower c) ∧ isAlpha c = (isLetter c || isNumber c) := by
  revert c; decide +kernel

/-- **C17** Case conversion changes exactly the letters of the other case, by 32; it is idempotent and
    the two conversions are inverse on letters. -/
theorem case_conversion (c : Byte) :
    (lower c → makeupper c = BitVec.ofNat 8 (c.toNat - 32) ∧ upper (makeupper c) ∧ makelower (makeupper c) = c) ∧
    (¬ lower c → makeupper c = c) ∧
    (upper c → makelower c = BitVec.ofNat 8 (c.toNat + 32) ∧ lower (makelower c) ∧ makeupper (makelower c) = c) ∧
    (¬ upper c → makelower c = c) ∧
    makeupper (makeupper c) = makeupper c ∧ makelower (makelower c) = makelower c := by
  revert c; decide +kernel

/-- **C17** `hexval` is the digit value on hex digits and 0 elsewhere. -/
theorem hexval_correct (c : Byte) : Hex.hexval c = (Hex.Spec.value c).getD 0 := by
  revert c; decide +kernel

example : makeupper (ch 'q') = ch 'Q' ∧ makelower (ch '[') = ch '[' ∧ Hex.hexval (ch 'f') = 15 := by decide

/-! ### C18 -/

/-- **C18** `containsChar`. -/
theorem containsChar_correct (s junk : List Byte) (c : Byte) (h0 : 0 ∉ s) :
    containsChar (some (s ++ 0 :: junk)) c = .ok (decide (c ∈ s)) ∧ containsChar none c = .ok false := by
  refine ⟨?_, rfl⟩
  unfold containsChar
  simp only
  induction s with
  | nil => simp [containsLoop]
  | cons x s ih =>
    have hx : x ≠ 0 := fun h => h0 (by rw [h]; exact List.mem_cons_self)
    have ih := ih (fun h => h0 (List.mem_cons_of_mem _ h))
    simp only [List.cons_append, containsLoop, if_neg hx]
    by_cases hc : x = c
    · rw [if_pos hc]; simp [hc]
    · rw [if_neg hc, ih]
      simp [Ne.symm hc]

/-- **C18** The zero byte is never reported as contained. -/
theorem containsChar_zero (s junk : List Byte) (h0 : 0 ∉ s) :
    containsChar (some (s ++ 0 :: junk)) 0 = .ok false := by
  rw [(containsChar_correct s junk 0 h0).1]; congr 1; exact decide_eq_false h0

example : containsChar (some (bytes! "abc" ++ [0])) (ch 'b') = .ok true := by decide

theorem strcmpEq_correct : ∀ (s t j1 j2 : List Byte), 0 ∉ s → 0 ∉ t →
    strcmpEq (s ++ 0 :: j1) (t ++ 0 :: j2) = .ok (decide (s = t))
  | [], [], j1, j2, h1, h2 => by simp [strcmpEq]
  | [], y :: t, j1, j2, h1, h2 => by
    have hy : y ≠ 0 := fun h => h2 (by rw [h]; exact List.mem_cons_self)
    simp only [List.cons_append, List.nil_append, strcmpEq]
    rw [if_pos (Ne.symm hy)]; simp
  | x :: s, [], j1, j2, h1, h2 => by
    have hx : x ≠ 0 := fun h => h1 (by rw [h]; exact List.mem_cons_self)
    simp only [List.cons_append, List.nil_append, strcmpEq]
    rw [if_pos hx]; simp
  | x :: s, y :: t, j1, j2, h1, h2 => by
    have hx : x ≠ 0 := fun h => h1 (by rw [h]; exact List.mem_cons_self)
    have ih := strcmpEq_correct s t j1 j2 (fun h => h1 (List.mem_cons_of_mem _ h)) (fun h => h2 (List.mem_cons_of_mem _ h))
    simp only [List.cons_append, strcmpEq]
    by_cases hxy : x = y
    · rw [if_neg (by simpa using hxy), if_neg hx, ih]; simp [hxy]
    · rw [if_pos hxy]; simp [hxy]

/-- **C18** `strends(a, b)` is true exactly if `b` is a suffix of `a`. -/
theorem strends_correct (a b j1 j2 : List Byte) (ha : 0 ∉ a) (hb : 0 ∉ b) :
    strends (a ++ 0 :: j1) (b ++ 0 :: j2) = .ok (decide (b <:+ a)) := by
  unfold strends
  rw [Hex.strlen_cstr _ _ ha, Hex.strlen_cstr _ _ hb]
  simp only [ok_bind]
  by_cases hl : a.length ≥ b.length
  · rw [if_pos hl, List.drop_append_of_le_length (by omega)]
    rw [strcmpEq_correct _ _ _ _ (fun h => ha (List.mem_of_mem_drop h)) hb]
    congr 1
    rw [Bool.eq_iff_iff, decide_eq_true_iff, decide_eq_true_iff, List.suffix_iff_eq_drop]
    exact eq_comm
  · rw [if_neg hl]
    have : ¬ b <:+ a := fun h => hl h.length_le
    simp [this]

example : strends (bytes! "file.c" ++ [0]) (bytes! ".c" ++ [0, 7]) = .ok true ∧
    strends (bytes! "c" ++ [0]) (bytes! ".c" ++ [0]) = .ok false := by decide

/-! ### C81 -/

/-- **C81** `strdup_n` returns NULL for NULL, length 0 or failing allocation; otherwise a fresh copy of
    the first `len + 1` bytes - it needs one byte more than the length it is given, and reads outside
    the object exactly when there is none. With the largest `size_t` the result is not NULL but an object of size 0. -/
theorem strdup_n_correct (s : List Byte) (len : Nat) (ok : Bool) :
    strdup_n ok none len = .ok none ∧ strdup_n ok (some s) 0 = .ok none ∧
    strdup_n false (some s) len = .ok none ∧
    (0 < len → len < 2^64 - 1 → strdup_n true (some s) len =
      if len < s.length then .ok (some (s.take (len + 1))) else .error .oobRead) ∧
    (len = 2^64 - 1 → strdup_n true (some s) len = .ok (some [])) := by
  refine ⟨rfl, by simp [strdup_n], ?_, ?_, ?_⟩
  · simp [strdup_n]
  · intro h h64
    simp only [strdup_n, show szt (len + 1) = len + 1 from Nat.mod_eq_of_lt (by omega)]
    rw [if_neg (by omega)]
    by_cases hl : len < s.length
    · rw [if_pos hl]; simp; omega
    · rw [if_neg hl]; simp; omega
  · rintro rfl
    rfl

/-- **C81** In particular the copy of a whole zero-terminated string is zero-terminated. -/
theorem strdup_n_whole (s junk : List Byte) (hs : s ≠ []) (h64 : s.length < 2^64 - 1) :
    strdup_n true (some (s ++ 0 :: junk)) s.length = .ok (some (s ++ [0])) := by
  rw [((strdup_n_correct (s ++ 0 :: junk) s.length true).2.2.2.1) (List.length_pos_iff.2 hs) h64]
  rw [if_pos (by simp), List.take_append, List.take_of_length_le (by omega)]
  simp

example : strdup_n true (some (bytes! "abc")) 3 = .error .oobRead ∧
    strdup_n true (some (bytes! "abc" ++ [0])) 3 = .ok (some (bytes! "abc" ++ [0])) := by decide

end Ulz.Props

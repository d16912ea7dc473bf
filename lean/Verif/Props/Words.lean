import Verif.Proofs.Words
/-! C229: findword finds words. -/
namespace Ulz.Props
open Ulz.Text Ulz.Text.Spec Ulz.Words Ulz.Words.Spec

/-- C229: a word without separators is never missed: if it stands in the text, `findword` returns that place or one in front of it. -/
theorem words_never_missed (s junk w wjunk : List Byte) (h0 : 0 ∉ s) (hw : w ≠ []) (hsep : ∀ x ∈ w, ¬ sepBefore x) (q : Nat) (hq : WordAt s w q) :
    ∃ p, findword (s ++ 0 :: junk) (w ++ wjunk) w.length = .ok (some p) ∧ p ≤ q := findword_reach h0 hw hsep q hq

/-- C229: for words without separators whose characters are not all the same, the result is the first place of the word. -/
theorem words_exact (s junk w wjunk : List Byte) (h0 : 0 ∉ s) (hsep : ∀ x ∈ w, ¬ sepBefore x) (hc : ¬ ∃ a, ∀ x ∈ w, x = a) :
    ∃ r, findword (s ++ 0 :: junk) (w ++ wjunk) w.length = .ok r ∧ First s w r := by
  have hw : w ≠ [] := by rintro rfl; exact hc ⟨0, by simp⟩
  obtain ⟨r, hr, hs⟩ := findword_sound s junk w wjunk h0
  refine ⟨r, hr, ?_, ?_⟩
  · rintro p rfl
    obtain ⟨h1, h2, _⟩ := hs p rfl
    refine ⟨⟨h1, findword_left_boundary s junk w wjunk h0 p hr hc, h2⟩, ?_⟩
    intro q hq hwq
    obtain ⟨p', h3, h4⟩ := findword_reach (junk := junk) (wjunk := wjunk) h0 hw hsep q hwq
    rw [hr] at h3
    cases h3
    omega
  · rintro rfl q hwq
    obtain ⟨p', h3, h4⟩ := findword_reach (junk := junk) (wjunk := wjunk) h0 hw hsep q hwq
    rw [hr] at h3
    cases h3

/-- C229: this is the exact limit: for a word of one repeated character (a word of one letter is one) there is a text in which `findword`
    finds it where it does not stand. -/
theorem words_exact_iff (w wjunk : List Byte) (hw : w ≠ []) (hup : ∀ x ∈ w, ¬ lower x) (hz : 0 ∉ w) (hsep : ∀ x ∈ w, ¬ sepBefore x) :
    (∀ s junk, 0 ∉ s → ∃ r, findword (s ++ 0 :: junk) (w ++ wjunk) w.length = .ok r ∧ First s w r) ↔ ¬ ∃ a, ∀ x ∈ w, x = a := by
  constructor
  · rintro hall ⟨a, ha⟩
    obtain ⟨k, rfl⟩ : ∃ k, w = List.replicate (k + 1) a := by
      refine ⟨w.length - 1, ?_⟩
      have : 0 < w.length := List.length_pos_iff.2 hw
      rw [show w.length - 1 + 1 = w.length by omega]
      exact List.eq_replicate_of_mem ha
    have haw : a ∈ List.replicate (k + 1) a := by simp
    have haz : a ≠ 0 := fun h => hz (h ▸ haw)
    have has := hsep a haw
    have hau : up a = a := by unfold up; rw [if_neg (hup a haw)]
    -- a character in front that is neither a separator nor the letter
    obtain ⟨x, hx0, hxs, hxa⟩ : ∃ x : Byte, x ≠ 0 ∧ ¬ sepBefore x ∧ up x ≠ a := by
      by_cases h : a = ch 'X'
      · exact ⟨ch 'Y', by decide, by unfold sepBefore; decide, by rw [h]; decide⟩
      · exact ⟨ch 'X', by decide, by unfold sepBefore; decide, fun e => h (e.symm.trans (by decide))⟩
    obtain ⟨s, hs⟩ : ∃ s, s = x :: List.replicate (k + 2) a := ⟨_, rfl⟩
    have hs0 : 0 ∉ s := by
      rw [hs]
      intro h
      rcases List.mem_cons.1 h with h | h
      · exact hx0 h.symm
      · exact haz (List.eq_of_mem_replicate h).symm
    have hget : ∀ i, 1 ≤ i → i < k + 3 → s[i]? = some a := by
      intro i h1 h2
      obtain ⟨i, rfl⟩ : ∃ j, i = j + 1 := ⟨i - 1, by omega⟩
      rw [hs, List.getElem?_cons_succ, List.getElem?_replicate, if_pos (by omega)]
    have hlen : s.length = k + 3 := by rw [hs]; simp
    have hno : ∀ p, ¬ WordAt s (List.replicate (k + 1) a) p := by
      rintro p ⟨hm, hl, hr⟩
      have h1 := hm.1
      rw [hlen, List.length_replicate] at h1
      rcases hl with rfl | ⟨c, h2, h3⟩
      · obtain ⟨c, h4, h5⟩ := hm.2 0 (by simp)
        rw [hs] at h4
        simp at h4
        subst h4
        exact hxa (by simpa [UcEq] using h5)
      · by_cases hp : p = 1
        · subst hp
          rw [hs] at h2
          simp at h2
          subst h2
          exact hxs h3
        · by_cases hp0 : p = 0
          · subst hp0
            obtain ⟨c, h4, h5⟩ := hm.2 0 (by simp)
            rw [hs] at h4
            simp at h4
            subst h4
            exact hxa (by simpa [UcEq] using h5)
          · rw [hget (p - 1) (by omega) (by omega)] at h2
            cases h2
            exact has h3
    -- the search returns the second place of the run
    obtain ⟨r, hr, hf⟩ := hall s [] hs0
    have hstr : ∀ (t : List Byte) (b : Nat), 0 ∉ t → b ≤ t.length → (∀ i, b ≤ i → i < t.length → t[i]? = some a) → b + (k + 1) ≤ t.length → (∀ i, i < b → ∃ c, t[i]? = some c ∧ up c ≠ a) →
        strstr_uc (t ++ 0 :: []) (List.replicate (k + 1) a ++ wjunk) (List.replicate (k + 1) a).length = .ok (some b) := by
      intro t b h1 h2 h3 h4 h5
      obtain ⟨r, e1, e2, e3⟩ := strstr_uc_exact_of_constant t [] (List.replicate (k + 1) a) wjunk h1 hw ⟨a, ha⟩
      have hmb : MatchAt UcEq t (List.replicate (k + 1) a) b := by
        refine ⟨by simpa using h4, fun j hj => ⟨a, h3 _ (by omega) (by simp at hj; omega), ?_⟩⟩
        rw [List.getElem_replicate]; exact hau
      cases r with
      | none => exact absurd hmb (e3 rfl b)
      | some p =>
        obtain ⟨f1, f2⟩ := e2 p rfl
        have : p = b := by
          rcases Nat.lt_trichotomy p b with h | h | h
          · obtain ⟨c, g1, g2⟩ := f1.2 0 (by simp)
            obtain ⟨d, g3, g4⟩ := h5 p h
            rw [Nat.add_zero, g3] at g1
            cases g1
            exact absurd (by simpa [UcEq] using g2) g4
          · exact h
          · exact absurd hmb (f2 b h)
        rw [e1, this]
    have hres : findword (s ++ 0 :: []) (List.replicate (k + 1) a ++ wjunk) (List.replicate (k + 1) a).length = .ok (some 2) := by
      have hx : up x ≠ a := hxa
      have hstr1 := hstr s 1 hs0 (by omega) (fun i h1 h2 => hget i h1 (by omega)) (by omega) (by
        intro i hi
        have : i = 0 := by omega
        subst this
        exact ⟨x, by rw [hs]; rfl, hx⟩)
      have hdrop : (s ++ 0 :: []).drop 2 = List.replicate (k + 1) a ++ 0 :: [] := by rw [hs]; simp [List.replicate_succ]
      have hstr2 := hstr (List.replicate (k + 1) a) 0 (by intro h; exact haz (List.eq_of_mem_replicate h).symm) (by omega)
        (fun i h1 h2 => by rw [List.getElem?_replicate, if_pos (by simpa using h2)]) (by simp) (by intro i hi; omega)
      have hr0 : rd (s ++ 0 :: []) 0 = .ok x := by rw [hs]; rfl
      have hr1 : rd (s ++ 0 :: []) 1 = .ok a := by rw [hs]; rfl
      have hlast : rd (s ++ 0 :: []) (2 + (List.replicate (k + 1) a).length) = .ok 0 := by
        rw [rd_append_right (by rw [hlen, List.length_replicate]; omega), hlen, List.length_replicate, show 2 + (k + 1) - (k + 3) = 0 by omega]; rfl
      have hlead : isLeadingWhitespace x = false := by
        rw [Bool.eq_false_iff]
        intro h
        apply hxs
        unfold isLeadingWhitespace at h
        unfold sepBefore
        rw [List.contains_iff_mem] at h
        exact h
      unfold findword
      have hfl : (s ++ 0 :: []).length + 1 = (k + 3) + 1 + 1 := by rw [List.length_append, hlen]; rfl
      rw [hfl]
      unfold findwordLoop
      rw [hr0]
      simp only [ok_bind]
      rw [if_neg hx0, List.drop_zero, hstr1]
      simp only [ok_bind, Nat.zero_add]
      rw [if_neg (by omega), Nat.sub_self, hr0]
      simp only [pure_eq_ok, ok_bind, hlead, Bool.false_eq_true, if_false, Bool.false_and]
      unfold findwordLoop
      rw [hr1]
      simp only [ok_bind]
      rw [if_neg haz, hdrop, hstr2]
      simp only [ok_bind, Nat.add_zero, if_true, pure_eq_ok]
      rw [hlast]
      rfl
    rw [hres] at hr
    cases hr
    exact hno 2 (hf.1 2 rfl).1
  · intro hc s junk h0
    exact words_exact s junk w wjunk h0 hsep hc

/-- C229: with separators within the word, it can be missed. -/
theorem words_missed : WordAt (bytes! "a-a-a-b") (bytes! "A-A-B") 2 ∧ findword (bytes! "a-a-a-b" ++ [0]) (bytes! "A-A-B") 5 = .ok none := by
  refine ⟨⟨⟨by decide, ?_⟩, .inr ⟨45, by decide, by unfold sepBefore; decide⟩, .inl (by decide)⟩, by decide +kernel⟩
  intro j hj
  match j, hj with
  | 0, _ => exact ⟨97, by decide, show up 97 = 65 by decide⟩
  | 1, _ => exact ⟨45, by decide, show up 45 = 45 by decide⟩
  | 2, _ => exact ⟨97, by decide, show up 97 = 65 by decide⟩
  | 3, _ => exact ⟨45, by decide, show up 45 = 45 by decide⟩
  | 4, _ => exact ⟨98, by decide, show up 98 = 66 by decide⟩

example : findword (bytes! "xfoo, foo. foo" ++ [0]) (bytes! "FOO") 3 = .ok (some 6) ∧ (∀ x ∈ bytes! "FOO", ¬ sepBefore x) := by
  refine ⟨by decide +kernel, ?_⟩
  unfold sepBefore
  decide

end Ulz.Props

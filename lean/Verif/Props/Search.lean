import Verif.Proofs.Search
/-! C233: exactly which matches the pattern search finds. -/
namespace Ulz.Props
open Ulz.Text Ulz.Text.Spec Ulz.Search Ulz.Search.Spec

/-- C233: `strstr_uc` returns exactly the match at a place that is tried; there is at most one. -/
theorem search_uc (s junk w wjunk : List Byte) (h0 : 0 ∉ s) (hw : w ≠ []) :
    ∃ r, strstr_uc (s ++ 0 :: junk) (w ++ wjunk) w.length = .ok r ∧ ∀ p, r = some p ↔ Tried UcEq s w p ∧ MatchAt UcEq s w p := by
  have hR : (fun c n => testUc c n = true) = UcEq := by funext c n; exact propext (testUc_iff c n)
  obtain ⟨r, h1, h2, h3⟩ := scan_tried testUc w wjunk junk hw s [] 0 0 (by omega) (by omega) (by intro j h; omega) (by omega) h0 .first
  rw [hR] at h2 h3
  simp only [List.nil_append] at h2 h3
  refine ⟨r, ?_, fun p => ⟨h2 p, ?_⟩⟩
  · unfold strstr_uc
    rw [if_neg (by have := List.length_pos_iff.2 hw; omega)]
    exact h1
  · rintro ⟨a, b⟩
    cases r with
    | none => exact absurd b (h3 rfl p a)
    | some p' => rw [tried_unique (h2 p' rfl).1 a (h2 p' rfl).2 b]

/-- C233: the same for `strstar`. -/
theorem search_star (s junk w wjunk : List Byte) (h0 : 0 ∉ s) (hw : w ≠ []) :
    ∃ r, strstar (s ++ 0 :: junk) (w ++ wjunk) w.length = .ok r ∧ ∀ p, r = some p ↔ Tried StarEq s w p ∧ MatchAt StarEq s w p := by
  have hR : (fun c n => testStar c n = true) = StarEq := by funext c n; exact propext (testStar_iff c n)
  obtain ⟨r, h1, h2, h3⟩ := scan_tried testStar w wjunk junk hw s [] 0 0 (by omega) (by omega) (by intro j h; omega) (by omega) h0 .first
  rw [hR] at h2 h3
  simp only [List.nil_append] at h2 h3
  refine ⟨r, ?_, fun p => ⟨h2 p, ?_⟩⟩
  · unfold strstar
    rw [if_neg (by have := List.length_pos_iff.2 hw; omega)]
    exact h1
  · rintro ⟨a, b⟩
    cases r with
    | none => exact absurd b (h3 rfl p a)
    | some p' => rw [tried_unique (h2 p' rfl).1 a (h2 p' rfl).2 b]

/-- C233: a match is passed (NULL or a place behind it is returned) exactly if the search, trying a place in front of it, fails with a
    character of the text that is part of the match or comes behind its start. -/
theorem search_uc_passed (s junk w wjunk : List Byte) (h0 : 0 ∉ s) (hw : w ≠ []) (q : Nat) (hq : MatchAt UcEq s w q) :
    ∃ r, strstr_uc (s ++ 0 :: junk) (w ++ wjunk) w.length = .ok r ∧
      ((∀ p, r = some p → q < p) ↔ ∃ p k, Tried UcEq s w p ∧ Fails UcEq s w p k ∧ p < q ∧ q ≤ p + k) := by
  obtain ⟨r, h1, h2⟩ := search_uc s junk w wjunk h0 hw
  exact ⟨r, h1, passed_iff hw h2 hq⟩

/-- C233: the same for `strstar`. -/
theorem search_star_passed (s junk w wjunk : List Byte) (h0 : 0 ∉ s) (hw : w ≠ []) (q : Nat) (hq : MatchAt StarEq s w q) :
    ∃ r, strstar (s ++ 0 :: junk) (w ++ wjunk) w.length = .ok r ∧
      ((∀ p, r = some p → q < p) ↔ ∃ p k, Tried StarEq s w p ∧ Fails StarEq s w p k ∧ p < q ∧ q ≤ p + k) := by
  obtain ⟨r, h1, h2⟩ := search_star s junk w wjunk h0 hw
  exact ⟨r, h1, passed_iff hw h2 hq⟩

/-- C233: a match at the start of the text, or behind a character that occurs nowhere in the needle, is not passed. -/
theorem search_uc_behind (s junk w wjunk : List Byte) (h0 : 0 ∉ s) (hw : w ≠ []) (q : Nat) (hq : MatchAt UcEq s w q)
    (hbefore : q = 0 ∨ ∃ c, s[q - 1]? = some c ∧ ∀ n ∈ w, ¬ UcEq c n) :
    ∃ p, strstr_uc (s ++ 0 :: junk) (w ++ wjunk) w.length = .ok (some p) ∧ p ≤ q := by
  obtain ⟨r, h1, h2⟩ := search_uc_passed s junk w wjunk h0 hw q hq
  have : ¬ ∃ p k, Tried UcEq s w p ∧ Fails UcEq s w p k ∧ p < q ∧ q ≤ p + k := by
    rintro ⟨p, k, -, ⟨a, hk, -⟩, b, c⟩
    rcases hbefore with rfl | ⟨x, hx, hn⟩
    · omega
    · obtain ⟨y, y1, y2⟩ := a (q - 1 - p) (by omega) (by omega)
      rw [show p + (q - 1 - p) = q - 1 by omega, hx] at y1
      injection y1 with y1
      exact hn _ (List.getElem_mem _) (y1 ▸ y2)
  rw [← h2] at this
  cases r with
  | none => exact absurd (by intro p h; cases h) this
  | some p =>
    refine ⟨p, h1, ?_⟩
    rcases Nat.lt_or_ge q p with x | x
    · exact absurd (by intro p' h; injection h with h; omega) this
    · exact x

theorem star_split : ∀ (w : List Byte), (∃ k, w = List.replicate k (42 : Byte)) ∨ ∃ k c t, w = List.replicate k (42 : Byte) ++ c :: t ∧ c ≠ 42 := by
  intro w
  induction w with
  | nil => exact .inl ⟨0, rfl⟩
  | cons x w ih =>
    by_cases hx : x = 42
    · subst hx
      rcases ih with ⟨k, rfl⟩ | ⟨k, c, t, rfl, hc⟩
      · exact .inl ⟨k + 1, rfl⟩
      · exact .inr ⟨k + 1, c, t, rfl, hc⟩
    · exact .inr ⟨0, x, w, rfl, hx⟩

/-- C233: exactly the patterns made of one character, repeated, and stars behind it are found in every text that they match somewhere;
    for every other pattern there is a text that it matches, and `strstar` returns NULL. -/
theorem search_star_complete_iff (w wjunk : List Byte) (hw : w ≠ []) (hz : 0 ∉ w) :
    (∀ s junk p, 0 ∉ s → MatchAt StarEq s w p → strstar (s ++ 0 :: junk) (w ++ wjunk) w.length ≠ .ok none) ↔
    ∃ a j k, w = List.replicate j a ++ List.replicate k (42 : Byte) := by
  constructor
  · intro hall
    apply Classical.byContradiction
    intro hno
    obtain ⟨a, w', hw'⟩ : ∃ a w', w = a :: w' := by
      cases w with
      | nil => exact absurd rfl hw
      | cons a w' => exact ⟨a, w', rfl⟩
    obtain ⟨j, b, t, h1, h2⟩ := not_constant_split w a (fun h => hno ⟨a, w.length, 0, by simpa using List.eq_replicate_iff.2 ⟨rfl, h⟩⟩)
    have hj : 0 < j := by
      rcases Nat.eq_zero_or_pos j with x | x
      · subst x
        rw [hw'] at h1
        simp only [List.replicate_zero, List.nil_append, List.cons.injEq] at h1
        exact absurd h1.1.symm h2
      · exact x
    obtain ⟨k, c, t', h3, hc⟩ : ∃ k c t', b :: t = List.replicate k (42 : Byte) ++ c :: t' ∧ c ≠ 42 := by
      rcases star_split (b :: t) with ⟨k, h⟩ | h
      · exact absurd ⟨a, j, k, by rw [h1, h]⟩ hno
      · exact h
    have hk : k = 0 → c ≠ a := by
      rintro rfl
      simp only [List.replicate_zero, List.nil_append, List.cons.injEq] at h3
      rw [← h3.1]
      exact h2
    have hwe : w = List.replicate j a ++ (List.replicate k (42 : Byte) ++ c :: t') := by rw [h1, h3]
    have hlen : w.length = j + (k + (t'.length + 1)) := by rw [hwe]; simp
    -- stars stand for `z`
    obtain ⟨z, hz0, hzc⟩ : ∃ z : Byte, z ≠ 0 ∧ z ≠ c := by
      by_cases hc1 : c = 1
      · exact ⟨2, by decide, by rw [hc1]; decide⟩
      · exact ⟨1, by decide, fun h => hc1 h.symm⟩
    let f : Byte → Byte := fun x => if x = 42 then z else x
    have hf0 : ∀ x ∈ w, f x ≠ 0 := by
      intro x hx
      show (if x = 42 then z else x) ≠ 0
      split
      · exact hz0
      · exact fun h => hz (h ▸ hx)
    have hfm : ∀ x, StarEq (f x) x := by
      intro x
      show x = 42 ∨ (if x = 42 then z else x) = x
      by_cases h : x = 42
      · exact .inl h
      · exact .inr (if_neg h)
    have haw : a ∈ w := by rw [hw']; simp
    let s := f a :: w.map f
    have hs0 : 0 ∉ s := by
      intro h
      rcases List.mem_cons.1 h with h | h
      · exact hf0 a haw h.symm
      · obtain ⟨x, hx, e⟩ := List.mem_map.1 h
        exact hf0 x hx e
    have hm : MatchAt StarEq s w 1 := by
      refine ⟨by simp [s]; omega, fun i hi => ⟨f w[i], ?_, hfm _⟩⟩
      show (f a :: w.map f)[1 + i]? = _
      rw [Nat.add_comm, List.getElem?_cons_succ]
      simp [hi]
    have gw : ∀ i, i < j → w[i]? = some a := by
      intro i hi
      rw [hwe, List.getElem?_append_left (by simpa using hi)]
      simp [hi]
    have gs : ∀ i, j ≤ i → i < j + k → w[i]? = some 42 := by
      intro i g1 g2
      rw [hwe, List.getElem?_append_right (by simpa using g1), List.getElem?_append_left (by simp; omega), List.getElem?_replicate, List.length_replicate,
        if_pos (by omega)]
    have gc : w[j + k]? = some c := by
      rw [hwe, List.getElem?_append_right (by simp), List.getElem?_append_right (by simp)]
      simp
    have hsi : ∀ i x, w[i]? = some x → s[i + 1]? = some (f x) := by
      intro i x h
      show (f a :: w.map f)[i + 1]? = _
      rw [List.getElem?_cons_succ, List.getElem?_map, h]
      rfl
    have hfail : Fails StarEq s w 0 (j + k) := by
      refine ⟨?_, by omega, ?_⟩
      · intro i hi hik
        rw [Nat.zero_add]
        have hgi : w[i]? = some w[i] := List.getElem?_eq_getElem hi
        rcases Nat.lt_or_ge i j with x | x
        · have e : w[i] = a := by
            have := gw i x
            rw [hgi] at this
            injection this
          cases i with
          | zero => exact ⟨f a, rfl, by rw [e]; exact hfm a⟩
          | succ i => exact ⟨f a, hsi i a (gw i (by omega)), by rw [e]; exact hfm a⟩
        · have e : w[i] = 42 := by
            have := gs i x hik
            rw [hgi] at this
            injection this
          have hl : i < s.length := by simp [s]; omega
          exact ⟨s[i], List.getElem?_eq_getElem hl, .inl e⟩
      · have e : w[j + k]'(by omega) = c := by
          have hgi : w[j + k]? = some (w[j + k]'(by omega)) := List.getElem?_eq_getElem (by omega)
          rw [gc] at hgi
          injection hgi with hgi
          exact hgi.symm
        rw [e, Nat.zero_add]
        by_cases hk0 : k = 0
        · refine ⟨f a, ?_, ?_⟩
          · have := hsi (j - 1) a (gw _ (by omega))
            rw [show j - 1 + 1 = j + k by omega] at this
            exact this
          · rintro (h | h)
            · exact hc h
            · have : f a = if a = 42 then z else a := rfl
              rw [this] at h
              split at h
              · exact hzc h
              · exact hk hk0 h.symm
        · refine ⟨f 42, ?_, ?_⟩
          · have := hsi (j + k - 1) 42 (gs _ (by omega) (by omega))
            rw [show j + k - 1 + 1 = j + k by omega] at this
            exact this
          · rintro (h | h)
            · exact hc h
            · have : f 42 = z := rfl
              rw [this] at h
              exact hzc h
    obtain ⟨r, h4, h5⟩ := search_star s [] w wjunk hs0 hw
    refine hall s [] 1 hs0 hm ?_
    rw [h4]
    cases r with
    | none => rfl
    | some p =>
      exfalso
      obtain ⟨tp, mp⟩ := (h5 p).1 rfl
      have hl := mp.1
      rcases Nat.eq_zero_or_pos p with x | x
      · subst x
        exact not_fails mp hfail
      · obtain ⟨i, h6, h7⟩ := chain tp .first x
        have := fails_unique h6 hfail
        simp only [s, List.length_cons, List.length_map] at hl
        omega
  · rintro ⟨a, j, k, hwe⟩ s junk q h0 hq he
    obtain ⟨r, h1, h2⟩ := search_star_passed s junk w wjunk h0 hw q hq
    rw [h1] at he
    injection he with he
    subst he
    obtain ⟨p, i, -, ⟨-, hi, c, h3, h4⟩, h5, h6⟩ := h2.1 (by intro p h; cases h)
    have hlen : w.length = j + k := by rw [hwe]; simp
    have hgi : w[i]? = some w[i] := List.getElem?_eq_getElem hi
    have hij : i < j := by
      rcases Nat.lt_or_ge i j with x | x
      · exact x
      · exfalso
        apply h4
        left
        have hst : w[i]? = some 42 := by
          rw [hwe, List.getElem?_append_right (by simpa using x), List.getElem?_replicate, List.length_replicate, if_pos (by omega)]
        rw [hst] at hgi
        injection hgi with hgi
        exact hgi.symm
    have gw : ∀ i, i < j → w[i]? = some a := by
      intro i hi
      rw [hwe, List.getElem?_append_left (by simpa using hi)]
      simp [hi]
    have e1 : w[i] = a := by
      rw [gw i hij] at hgi
      injection hgi with hgi
      exact hgi.symm
    obtain ⟨c', h7, h8⟩ := hq.2 (p + i - q) (by omega)
    rw [show q + (p + i - q) = p + i by omega, h3] at h7
    injection h7 with h7
    have e2 : w[p + i - q]'(by omega) = a := by
      have hgi : w[p + i - q]? = some (w[p + i - q]'(by omega)) := List.getElem?_eq_getElem (by omega)
      rw [gw _ (by omega)] at hgi
      injection hgi with hgi
      exact hgi.symm
    rw [e2] at h8
    rw [e1] at h4
    exact h4 (h7 ▸ h8)

example : ∃ a j k, bytes! "aa*" = List.replicate j a ++ List.replicate k (42 : Byte) := ⟨ch 'a', 2, 1, by decide⟩
/-- A match behind a blank. -/
example : MatchAt UcEq (bytes! "aa aab") (bytes! "AAB") 3 ∧ (∃ c, (bytes! "aa aab")[3 - 1]? = some c ∧ ∀ n ∈ bytes! "AAB", ¬ UcEq c n) := by
  refine ⟨⟨by decide, ?_⟩, ch ' ', rfl, by unfold UcEq; decide⟩
  intro j h
  match j, h with
  | 0, _ => exact ⟨ch 'a', rfl, by unfold UcEq; decide +revert⟩
  | 1, _ => exact ⟨ch 'a', rfl, by unfold UcEq; decide +revert⟩
  | 2, _ => exact ⟨ch 'b', rfl, by unfold UcEq; decide +revert⟩
/-- A pattern that is missed: `a*b` in `aaxb`. -/
example : MatchAt StarEq (bytes! "aaxb") (bytes! "a*b") 1 ∧ strstar (bytes! "aaxb" ++ [0]) (bytes! "a*b") 3 = .ok none := by
  refine ⟨⟨by decide, ?_⟩, by decide⟩
  intro j h
  match j, h with
  | 0, _ => exact ⟨ch 'a', rfl, .inr rfl⟩
  | 1, _ => exact ⟨ch 'x', rfl, .inl rfl⟩
  | 2, _ => exact ⟨ch 'b', rfl, .inr rfl⟩

end Ulz.Props

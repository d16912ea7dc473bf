import Verif.Spec.Iniparser
import Verif.Spec.Stringptr
import Verif.Proofs.Stringptr
/-! Lemmas about the INI reader. -/
namespace Ulz.Iniparser
open Ulz.Stringptr (SP memEq holds_iff rdN_ok rdN_prefix)
open Ulz.Stringptr.Spec (Holds HoldsAll)
open Ulz.Iniparser.Spec

theorem holdsAll_length {l : List SP} {ls : List (List Byte)} (h : HoldsAll l ls) : l.length = ls.length := by
  induction h with
  | nil => rfl
  | cons _ _ ih => simp [ih]

theorem holdsAll_get {l : List SP} {ls : List (List Byte)} (h : HoldsAll l ls) : ∀ i (hi : i < ls.length),
    ∃ p, l[i]? = some p ∧ Holds p ls[i] := by
  induction h with
  | nil => intro i hi; simp at hi
  | cons h1 _ ih =>
    intro i hi
    match i, hi with
    | 0, _ => exact ⟨_, rfl, h1⟩
    | i + 1, hi => exact ih i (by simpa using hi)

theorem memEq_spec {a b : List Byte} {i j n : Nat} (h1 : i + n ≤ a.length) (h2 : j + n ≤ b.length) :
    memEq a i b j n = .ok (decide ((a.drop i).take n = (b.drop j).take n)) := by
  unfold memEq
  rw [rdN_ok h1, ok_bind, rdN_ok h2, ok_bind]; rfl

theorem isHeader_spec {line name : SP} {t n : List Byte} (h1 : Holds line t) (h2 : Holds name n) (hn : n.length + 2 < 2 ^ 64) :
    isHeader line name = .ok (decide (Header n t)) := by
  obtain ⟨j, rfl⟩ := holds_iff.1 h1
  obtain ⟨k, rfl⟩ := holds_iff.1 h2
  unfold isHeader
  simp only
  rw [szt_of_lt hn]
  by_cases hl : t.length ≥ n.length + 2
  · rw [if_pos hl]
    match t, hl with
    | c :: t, hl =>
      simp only [List.length_cons, ge_iff_le] at hl
      rw [List.cons_append, rd_cons_zero, ok_bind]
      by_cases hc : c = ch '['
      · subst hc
        rw [if_pos rfl, Nat.add_comm 1, rd_cons_succ, rd_append_left (by omega), rd_ok (by omega), ok_bind]
        by_cases he : t[n.length] = ch ']'
        · rw [if_pos he, memEq_spec (by simp; omega) (by simp)]
          congr 1
          rw [decide_eq_decide]
          simp only [List.drop_succ_cons, List.drop_zero, List.take_left, Header, List.cons_append,
            List.cons_prefix_cons, true_and]
          rw [List.take_append_of_le_length (by omega)]
          constructor
          · intro h
            refine ⟨t.drop (n.length + 1), ?_⟩
            rw [← h, List.append_assoc, List.singleton_append, ← he, List.length_take, Nat.min_eq_left (by omega),
              List.getElem_cons_drop, List.take_append_drop]
          · rintro ⟨m, rfl⟩
            simp
        · rw [if_neg he]
          refine congrArg _ (decide_eq_false ?_).symm
          rintro ⟨m, hm⟩
          simp only [List.cons_append, List.cons.injEq, true_and] at hm
          subst hm
          simp at he
      · rw [if_neg hc]
        refine congrArg _ (decide_eq_false ?_).symm
        rintro ⟨m, hm⟩
        simp only [List.cons_append, List.cons.injEq] at hm
        exact hc hm.1.symm
  · rw [if_neg hl]
    refine congrArg _ (decide_eq_false ?_).symm
    intro h
    have := h.length_le
    simp at this
    omega

theorem header_bracket {n t : List Byte} (h : Header n t) : Bracket t := by
  obtain ⟨m, rfl⟩ := h
  exact ⟨n ++ [ch ']'] ++ m, by simp⟩

theorem endsHere_spec {line : SP} {t : List Byte} {st : Nat} (h1 : Holds line t) (hst : st ≠ 0) :
    endsHere st line = .ok (decide (Bracket t)) := by
  obtain ⟨j, rfl⟩ := holds_iff.1 h1
  unfold endsHere
  match t with
  | [] => simp [Bracket]
  | c :: t =>
    rw [if_pos ⟨hst, by simp⟩]
    simp only
    rw [List.cons_append, rd_cons_zero, ok_bind]
    simp [Bracket, eq_comm]

/-- Inside a section. -/
theorem secLoop_in {l : List SP} {ls : List (List Byte)} {name : SP} (h : HoldsAll l ls) {st : Nat} (hst : st ≠ 0) :
    ∀ fuel i, st ≤ i → i ≤ ls.length → ls.length < fuel + i → secLoop l name fuel i st = .ok ⟨st, i - st + (body ls i).length⟩ := by
  intro fuel
  induction fuel with
  | zero => intro i _ _ _; omega
  | succ fuel ih =>
    intro i h1 h2 h3
    rw [secLoop, holdsAll_length h]
    by_cases hi : i < ls.length
    · obtain ⟨p, hp, hh⟩ := holdsAll_get h i hi
      rw [if_pos hi, hp]
      simp only
      unfold startsHere
      rw [if_neg hst, pure_eq_ok, ok_bind]
      simp only [Bool.false_eq_true, if_false]
      rw [endsHere_spec hh hst, ok_bind]
      unfold body
      rw [List.drop_eq_getElem_cons hi, List.takeWhile_cons]
      by_cases hb : Bracket ls[i]
      · simp [hb]
      · rw [decide_eq_false hb, decide_eq_true (show ¬Bracket ls[i] from hb)]
        simp only [Bool.false_eq_true, if_false]
        rw [ih (i + 1) (by omega) (by omega) (by omega)]
        simp only [if_true, List.length_cons, body]
        congr 2
        omega
    · rw [if_neg hi, if_pos hst]
      obtain rfl : i = ls.length := by omega
      simp [body]

theorem headers_step {ls : List (List Byte)} {n : List Byte} {i : Nat} (hi : i < ls.length) :
    headers ls n i = if Header n ls[i] then i :: headers ls n (i + 1) else headers ls n (i + 1) := by
  unfold headers
  rw [show ls.length - i = (ls.length - (i + 1)) + 1 by omega, List.range'_succ, List.filter_cons]
  by_cases h : Header n ls[i] <;> simp [h, hi]

theorem headers_end {ls : List (List Byte)} {n : List Byte} {i : Nat} (hi : ls.length ≤ i) : headers ls n i = [] := by
  unfold headers
  rw [show ls.length - i = 0 by omega]; rfl

/-- Before the section. -/
theorem secLoop_out {l : List SP} {ls : List (List Byte)} {name : SP} {n : List Byte} (h : HoldsAll l ls) (hname : Holds name n)
    (hn : n.length + 2 < 2 ^ 64) : ∀ fuel i, 0 < fuel → ls.length < fuel + i →
    secLoop l name fuel i 0 = .ok (match headers ls n i with | [] => ⟨0, 0⟩ | h :: _ => sect ls h) := by
  intro fuel
  induction fuel with
  | zero => intro i h _; omega
  | succ fuel ih =>
    intro i _ h3
    rw [secLoop, holdsAll_length h]
    by_cases hi : i < ls.length
    · obtain ⟨p, hp, hh⟩ := holdsAll_get h i hi
      rw [if_pos hi, hp]
      simp only
      unfold startsHere
      rw [if_pos rfl, isHeader_spec hh hname hn, ok_bind, headers_step hi]
      by_cases hb : Header n ls[i]
      · rw [if_pos hb, if_pos (decide_eq_true hb), secLoop_in h (by omega) fuel (i + 1) (Nat.le_refl _) (by omega) (by omega)]
        simp [sect]
      · rw [if_neg hb, decide_eq_false hb]
        simp only [Bool.false_eq_true, if_false]
        unfold endsHere
        rw [if_neg (by simp), pure_eq_ok, ok_bind]
        simp only [Bool.false_eq_true, if_false]
        exact ih (i + 1) (by omega) (by omega)
    · rw [if_neg hi, if_neg (by simp), headers_end (by omega)]; rfl

theorem get_section_at_spec {l : List SP} {ls : List (List Byte)} {name : SP} {n : List Byte} (h : HoldsAll l ls) (hname : Holds name n)
    (hn : n.length + 2 < 2 ^ 64) (i : Nat) :
    get_section_at l name i = .ok (match headers ls n i with | [] => ⟨0, 0⟩ | h :: _ => sect ls h) := by
  unfold get_section_at
  rw [holdsAll_length h]
  exact secLoop_out h hname hn _ _ (by omega) (by omega)

theorem body_length (ls : List (List Byte)) (i : Nat) : (body ls i).length ≤ ls.length - i := by
  unfold body
  have := (List.takeWhile_sublist (l := ls.drop i) fun l => decide ¬Bracket l).length_le
  rwa [List.length_drop] at this

theorem headers_body (ls : List (List Byte)) (n : List Byte) : ∀ k i, (body ls i).length = k → headers ls n i = headers ls n (i + k) := by
  intro k
  induction k with
  | zero => intro i _; rfl
  | succ k ih =>
    intro i hk
    have hi : i < ls.length := by have := body_length ls i; omega
    unfold body at hk
    rw [List.drop_eq_getElem_cons hi, List.takeWhile_cons] at hk
    by_cases hb : Bracket ls[i]
    · simp [hb] at hk
    · rw [decide_eq_true (show ¬Bracket ls[i] from hb)] at hk
      rw [headers_step hi, if_neg (fun hh => hb (header_bracket hh)), ih (i + 1) (by simpa [body] using hk)]
      congr 1; omega

theorem headers_lt {ls : List (List Byte)} {n : List Byte} {i h : Nat} (hm : h ∈ headers ls n i) : i ≤ h ∧ h < ls.length := by
  have := (List.mem_filter.1 hm).1
  rw [List.mem_range'_1] at this
  omega

theorem headers_tail {ls : List (List Byte)} {n : List Byte} : ∀ k i h hs, ls.length - i = k → headers ls n i = h :: hs →
    hs = headers ls n (h + 1) := by
  intro k
  induction k with
  | zero => intro i h hs hk he; rw [headers_end (by omega)] at he; simp at he
  | succ k ih =>
    intro i h hs hk he
    have hi : i < ls.length := by omega
    rw [headers_step hi] at he
    split at he
    · injection he with e1 e2
      subst e1; exact e2.symm
    · exact ih (i + 1) h hs (by omega) he

theorem visit_spec {l : List SP} {ls : List (List Byte)} {name : SP} {n : List Byte} (h : HoldsAll l ls) (hname : Holds name n)
    (hn : n.length + 2 < 2 ^ 64) (hl : ls.length < 2 ^ 64) : ∀ fuel i, 0 < fuel → ls.length < fuel + i →
    visit l name fuel (match headers ls n i with | [] => ⟨0, 0⟩ | h :: _ => sect ls h) = .ok ((headers ls n i).map (sect ls)) := by
  intro fuel
  induction fuel with
  | zero => intro i h _; omega
  | succ fuel ih =>
    intro i _ h2
    rw [visit]
    cases hh : headers ls n i with
    | nil => simp
    | cons x xs =>
      have hx : i ≤ x ∧ x < ls.length := headers_lt (n := n) (i := i) (by rw [hh]; simp)
      have hb := body_length ls (x + 1)
      simp only
      rw [if_neg (by simp [sect])]
      unfold get_next_section
      rw [show szt ((sect ls x).startline + (sect ls x).linecount) = x + 1 + (body ls (x + 1)).length from szt_of_lt (by
        simp only [sect]; omega), get_section_at_spec h hname hn, ok_bind, ← headers_body ls n _ (x + 1) rfl,
        headers_tail _ _ _ _ rfl hh, ih (x + 1) (by omega) (by omega)]
      simp

/-! ### Values -/

theorem isKey_spec {line key : SP} {t k : List Byte} (h1 : Holds line t) (h2 : Holds key k) :
    isKey line key = .ok (decide (k ++ [ch '='] <+: t)) := by
  obtain ⟨j, rfl⟩ := holds_iff.1 h1
  obtain ⟨m, rfl⟩ := holds_iff.1 h2
  unfold isKey
  simp only
  by_cases hl : t.length > k.length
  · rw [if_pos hl, rd_append_left (by omega), rd_ok (by omega), ok_bind]
    by_cases he : t[k.length] = ch '='
    · rw [if_pos he, memEq_spec (by simp; omega) (by simp)]
      congr 1
      rw [decide_eq_decide]
      simp only [List.drop_zero, List.take_left]
      rw [List.take_append_of_le_length (by omega)]
      constructor
      · intro h
        refine ⟨t.drop (k.length + 1), ?_⟩
        rw [← h, List.append_assoc, List.singleton_append, ← he, List.length_take, Nat.min_eq_left (by omega),
          List.getElem_cons_drop, List.take_append_drop]
      · rintro ⟨m, rfl⟩
        simp
    · rw [if_neg he]
      refine congrArg _ (decide_eq_false ?_).symm
      rintro ⟨m, rfl⟩
      simp at he
  · rw [if_neg hl]
    refine congrArg _ (decide_eq_false ?_).symm
    intro h
    have := h.length_le
    simp at this
    omega

theorem valLoop_spec {l : List SP} {ls : List (List Byte)} {key : SP} {k : List Byte} (h : HoldsAll l ls) (hkey : Holds key k)
    {maxline : Nat} : ∀ fuel i, 0 < fuel → maxline < fuel + i →
    (∃ j v, i ≤ j ∧ j < maxline ∧ ls[j]? = some (k ++ ch '=' :: v) ∧
      (∀ j', i ≤ j' → j' < j → ∀ v, ls[j']? ≠ some (k ++ ch '=' :: v)) ∧
      ∃ r, valLoop l key maxline fuel i = .ok (some j, some r) ∧ Holds r v) ∨
    ((∀ j', i ≤ j' → j' < maxline → ∀ v, ls[j']? ≠ some (k ++ ch '=' :: v)) ∧ valLoop l key maxline fuel i = .ok (none, none)) := by
  intro fuel
  induction fuel with
  | zero => intro i h _; omega
  | succ fuel ih =>
    intro i _ h2
    rw [valLoop]
    by_cases hi : i < maxline
    · rw [if_pos hi]
      have ih := ih (i + 1) (by omega) (by omega)
      have next : (∀ v, ls[i]? ≠ some (k ++ ch '=' :: v)) → (∃ j v, i ≤ j ∧ j < maxline ∧ ls[j]? = some (k ++ ch '=' :: v) ∧
          (∀ j', i ≤ j' → j' < j → ∀ v, ls[j']? ≠ some (k ++ ch '=' :: v)) ∧
          ∃ r, valLoop l key maxline fuel (i + 1) = .ok (some j, some r) ∧ Holds r v) ∨
          ((∀ j', i ≤ j' → j' < maxline → ∀ v, ls[j']? ≠ some (k ++ ch '=' :: v)) ∧
            valLoop l key maxline fuel (i + 1) = .ok (none, none)) := by
        intro hno
        rcases ih with ⟨j, v, a, b, c, d, e⟩ | ⟨a, b⟩
        · refine Or.inl ⟨j, v, by omega, b, c, ?_, e⟩
          intro j' p q
          by_cases hj : j' = i
          · subst hj; exact hno
          · exact d j' (by omega) q
        · refine Or.inr ⟨?_, b⟩
          intro j' p q
          by_cases hj : j' = i
          · subst hj; exact hno
          · exact a j' (by omega) q
      by_cases hls : i < ls.length
      · obtain ⟨p, hp, hh⟩ := holdsAll_get h i hls
        rw [hp]
        simp only
        rw [isKey_spec hh hkey, ok_bind]
        by_cases hk : k ++ [ch '='] <+: ls[i]
        · rw [if_pos (decide_eq_true hk)]
          obtain ⟨v, hv⟩ := hk
          refine Or.inl ⟨i, v, by omega, hi, ?_, by intro j' p q; omega, _, rfl, ?_⟩
          · rw [List.getElem?_eq_getElem hls, ← hv]; simp
          · obtain ⟨J, rfl⟩ := holds_iff.1 hh
            obtain ⟨m, rfl⟩ := holds_iff.1 hkey
            rw [← hv]
            refine ⟨?_, J, ?_⟩
            · simp
              omega
            · simp
        · rw [decide_eq_false hk]
          simp only [Bool.false_eq_true, if_false]
          refine next (fun v hv => hk ?_)
          rw [List.getElem?_eq_getElem hls] at hv
          injection hv with hv
          rw [hv]
          exact ⟨v, by simp⟩
      · rw [List.getElem?_eq_none (by rw [holdsAll_length h]; omega)]
        exact next (fun v => by rw [List.getElem?_eq_none (by omega)]; simp)
    · rw [if_neg hi]
      exact Or.inr ⟨by intro j' p q; omega, rfl⟩

/-! ### Counting -/

theorem lastNonWs_spec {t J : List Byte} : ∀ n, n ≤ t.length → ∃ m, lastNonWs (t ++ J) n = .ok m ∧ m ≤ n ∧
    (∀ i, m ≤ i → i < n → ∃ c, t[i]? = some c ∧ (c = ch ' ' ∨ c = ch '\t')) ∧
    (m ≠ 0 → ∃ c, t[m - 1]? = some c ∧ ¬(c = ch ' ' ∨ c = ch '\t')) := by
  intro n
  induction n with
  | zero => intro _; exact ⟨0, rfl, by omega, by intro i _ _; omega, by simp⟩
  | succ n ih =>
    intro hn
    have ht : t[n]? = some t[n] := List.getElem?_eq_getElem (by omega)
    rw [lastNonWs]
    unfold iswhitespace
    rw [rd_append_left (by omega), rd_ok (by omega)]
    simp only [ok_bind, pure_eq_ok]
    by_cases hw : t[n] = ch '\t' ∨ t[n] = ch ' '
    · rw [if_pos (decide_eq_true hw)]
      obtain ⟨m, e1, e2, e3, e4⟩ := ih (by omega)
      refine ⟨m, e1, by omega, ?_, e4⟩
      intro i h1 h2
      by_cases hi : i = n
      · subst hi; exact ⟨_, ht, hw.symm⟩
      · exact e3 i h1 (by omega)
    · rw [decide_eq_false hw]
      exact ⟨n + 1, rfl, by omega, by intro i _ _; omega, fun _ => ⟨_, ht, fun h => hw h.symm⟩⟩

theorem counts_spec {line : SP} {t : List Byte} (h : Holds line t) :
    ∃ b, counts line = .ok b ∧ (b = true ↔ Counted t) := by
  obtain ⟨j, rfl⟩ := holds_iff.1 h
  unfold counts Counted
  simp only
  by_cases h3 : 3 ≤ t.length
  · rw [if_pos h3]
    match t, h3 with
    | c :: t, h3 =>
      rw [List.cons_append, rd_cons_zero, ok_bind, ← List.cons_append]
      by_cases hc : c = ch '['
      · subst hc
        rw [if_pos rfl]
        obtain ⟨m, e1, e2, e3, e4⟩ := lastNonWs_spec (t := ch '[' :: t) (J := j) (t.length + 1) (Nat.le_refl _)
        rw [List.length_cons, e1, ok_bind]
        have hm : m ≠ 0 := by
          rintro rfl
          obtain ⟨c, hc, hw⟩ := e3 0 (by omega) (by omega)
          simp at hc
          subst hc
          revert hw; decide
        rw [if_pos hm]
        have hml : m - 1 < (ch '[' :: t).length := by rw [List.length_cons]; omega
        rw [rd_append_left hml, rd_ok hml, ok_bind]
        refine ⟨_, rfl, ?_⟩
        rw [decide_eq_true_eq]
        constructor
        · intro hr
          refine ⟨h3, ?_⟩
          obtain ⟨k, rfl⟩ : ∃ k, m = k + 2 := by
            match m, hm with
            | 1, _ => simp at hr; exact absurd hr (by decide)
            | k + 2, _ => exact ⟨k, rfl⟩
          simp only [Nat.reduceSubDiff, List.getElem_cons_succ] at hr
          refine ⟨t.take k, t.drop (k + 1), ?_, ?_⟩
          · rw [← hr]
            simp only [List.cons_append, List.append_assoc, List.nil_append, List.cons.injEq, true_and]
            rw [List.getElem_cons_drop, List.take_append_drop]
          · intro c hc
            obtain ⟨i, hi, rfl⟩ := List.getElem_of_mem hc
            rw [List.length_drop] at hi
            obtain ⟨c, h1, h2⟩ := e3 (k + 2 + i) (by omega) (by omega)
            rw [show k + 2 + i = (k + 1 + i) + 1 by omega, List.getElem?_cons_succ, List.getElem?_eq_getElem (by omega)] at h1
            injection h1 with h1
            rw [List.getElem_drop, h1]
            exact h2
        · rintro ⟨_, mid, blanks, he, hb⟩
          simp only [List.cons_append, List.append_assoc, List.nil_append, List.cons.injEq, true_and] at he
          subst he
          have hmm : m = mid.length + 2 := by
            rcases Nat.lt_trichotomy m (mid.length + 2) with hlt | heq | hgt
            · obtain ⟨c, h1, h2⟩ := e3 (mid.length + 1) (by omega) (by simp)
              rw [List.getElem?_cons_succ, List.getElem?_append_right (Nat.le_refl _)] at h1
              simp at h1
              subst h1
              exact absurd h2 (by decide)
            · exact heq
            · obtain ⟨c, h1, h2⟩ := e4 hm
              simp at e2
              rw [show m - 1 = (m - 2) + 1 by omega, List.getElem?_cons_succ, List.getElem?_append_right (by omega),
                show m - 2 - mid.length = (m - 3 - mid.length) + 1 by omega, List.getElem?_cons_succ] at h1
              exact absurd (hb c (List.mem_of_getElem? h1)) h2
          subst hmm
          simp
      · rw [if_neg hc]
        refine ⟨false, rfl, by simp, ?_⟩
        rintro ⟨_, mid, blanks, he, _⟩
        simp only [List.cons_append, List.cons.injEq] at he
        exact absurd he.1 hc
  · rw [if_neg h3]
    exact ⟨false, rfl, by simp, fun h => absurd h.1 h3⟩

open Classical in
theorem countLoop_spec {l : List SP} {ls : List (List Byte)} (h : HoldsAll l ls) : ∀ n,
    countLoop l n = .ok (n + ls.countP fun t => decide (Counted t)) := by
  induction h with
  | nil => intro n; rfl
  | cons h1 _ ih =>
    intro n
    obtain ⟨b, e1, e2⟩ := counts_spec h1
    rw [countLoop, e1, ok_bind, List.countP_cons]
    cases b with
    | true =>
      rw [if_pos rfl, ih, if_pos (decide_eq_true (e2.1 rfl))]
      congr 1; omega
    | false =>
      simp only [Bool.false_eq_true, if_false]
      rw [ih, if_neg (by simpa using e2)]
      rfl

end Ulz.Iniparser

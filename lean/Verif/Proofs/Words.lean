import Verif.Props.Text
import Verif.Spec.Words
/-! Helper lemmas for C229. -/
namespace Ulz.Words
open Ulz.Text Ulz.Text.Spec Ulz.Words.Spec

/-- A match behind a character that no needle character matches is not passed. -/
theorem scan_reach (test : Byte → Byte → Bool) (w wj junk : List Byte) (hw : w ≠ []) :
    ∀ (s pre : List Byte) (i save q : Nat), i ≤ w.length → i ≤ pre.length →
    (∀ j, (h : j < i) → (hj : j < w.length) → ∃ c, pre[pre.length - i + j]? = some c ∧ test c w[j] = true) →
    (0 < i → save = pre.length - i) → 0 ∉ s →
    MatchAt (fun c n => test c n = true) (pre ++ s) w q →
    q = pre.length - i ∨ (pre.length - i < q ∧ ∃ c, (pre ++ s)[q - 1]? = some c ∧ ∀ n ∈ w, test c n = false) →
    ∃ p, scan test (w ++ wj) w.length (s ++ 0 :: junk) pre.length i save = .ok (some p) ∧ p ≤ q
  | s, pre, i, save, q, hi, hip, hm, hs, h0, hmq, hq => by
    have hwl : 0 < w.length := List.length_pos_iff.2 hw
    rw [scan_eq]
    by_cases hik : i = w.length
    · rw [if_pos hik]
      refine ⟨save, rfl, ?_⟩
      have hsv : save = pre.length - i := hs (by omega)
      omega
    · rw [if_neg hik]
      cases s with
      | nil =>
        have := hmq.1
        simp at this
        omega
      | cons c s =>
        have hc : c ≠ 0 := fun h => h0 (by rw [h]; exact List.mem_cons_self)
        have h0' : 0 ∉ s := fun h => h0 (List.mem_cons_of_mem _ h)
        simp only [List.cons_append, if_neg hc]
        have hrd : rd (w ++ wj) i = .ok w[i] := by
          rw [rd_append_left (by omega), rd_ok (by omega)]
        rw [hrd]
        simp only [ok_bind]
        have e : pre.length + 1 = (pre ++ [c]).length := by simp
        have e2 : pre ++ c :: s = (pre ++ [c]) ++ s := by simp
        have hcat : (pre ++ c :: s)[pre.length]? = some c := by simp
        by_cases ht : test c w[i] = true
        · rw [if_pos ht, e]
          refine scan_reach test w wj junk hw s (pre ++ [c]) (i + 1) (if i = 0 then pre.length else save) q
            (by omega) (by simp; omega) (by
              intro j h1 h2
              by_cases hji : j = i
              · subst hji
                refine ⟨c, ?_, ht⟩
                rw [List.getElem?_append_right (by simp; omega)]
                simp [show pre.length - j + j - pre.length = 0 by omega]
              · obtain ⟨c', h3, h4⟩ := hm j (by omega) h2
                refine ⟨c', ?_, h4⟩
                simp only [List.length_append, List.length_singleton]
                rw [List.getElem?_append_left (by omega)]
                rw [← h3]; congr 1; omega)
            (by intro _; by_cases hi0 : i = 0
                · rw [if_pos hi0]; simp; omega
                · rw [if_neg hi0, hs (by omega)]; simp)
            h0' (by rw [← e2]; exact hmq) ?_
          have e3 : (pre ++ [c]).length - (i + 1) = pre.length - i := by simp
          rw [e3, ← e2]
          exact hq
        · rw [if_neg ht, e]
          refine scan_reach test w wj junk hw s (pre ++ [c]) 0 (if i = 0 then pre.length else save) q (by omega) (by omega)
            (by intro j h; omega) (by omega) h0' (by rw [← e2]; exact hmq) ?_
          rw [← e2]
          simp only [List.length_append, List.length_singleton, Nat.sub_zero]
          rcases hq with hq | ⟨hq, c', h1, h2⟩
          · exfalso
            obtain ⟨d, h3, h4⟩ := hmq.2 i (by omega)
            rw [hq, show pre.length - i + i = pre.length by omega, hcat] at h3
            cases h3
            exact ht h4
          · rcases Nat.lt_trichotomy q (pre.length + 1) with h | h | h
            · exfalso
              obtain ⟨d, h3, h4⟩ := hm (q - 1 - (pre.length - i)) (by omega) (by omega)
              rw [show pre.length - i + (q - 1 - (pre.length - i)) = q - 1 by omega] at h3
              rw [List.getElem?_append_left (by omega), h3] at h1
              cases h1
              rw [h2 _ (List.getElem_mem _)] at h4
              cases h4
            · exact .inl h
            · exact .inr ⟨h, c', h1, h2⟩
  termination_by s => s.length

theorem sep_testUc {c : Byte} (hc : sepBefore c) {w : List Byte} (hw : ∀ x ∈ w, ¬ sepBefore x) : ∀ n ∈ w, testUc c n = false := by
  intro n hn
  have : c ≠ n := by rintro rfl; exact hw _ hn hc
  unfold testUc
  have hl : isLower c = false := by
    have key : ∀ c : Byte, c ∈ [(32 : Byte), 9, 10, 58, 44, 46, 59, 45] → isLower c = false := by decide +kernel
    exact key c hc
  simpa [hl] using this

/-- A search from the base finds something not behind a place of the word. -/
theorem strstr_reach {s junk w wjunk : List Byte} (h0 : 0 ∉ s) (hw : w ≠ []) (hsep : ∀ x ∈ w, ¬ sepBefore x) (q : Nat) (hm : MatchAt UcEq s w q)
    (hl : q = 0 ∨ ∃ c, s[q - 1]? = some c ∧ sepBefore c) : ∃ p, strstr_uc (s ++ 0 :: junk) (w ++ wjunk) w.length = .ok (some p) ∧ p ≤ q := by
  unfold strstr_uc
  rw [if_neg (by simpa using hw)]
  refine scan_reach testUc w wjunk junk hw s [] 0 0 q (by omega) (by omega) (by intro j h; omega) (by omega) h0 ?_ ?_
  · rw [MatchAt_congr testUc_iff]; exact hm
  · rcases hl with h | ⟨c, h1, h2⟩
    · exact .inl h
    · by_cases hq : q = 0
      · exact .inl hq
      · exact .inr ⟨by simp; omega, c, h1, sep_testUc h2 hsep⟩

theorem findword_reach {s junk w wjunk : List Byte} (h0 : 0 ∉ s) (hw : w ≠ []) (hsep : ∀ x ∈ w, ¬ sepBefore x) (q : Nat) (hq : WordAt s w q) :
    ∃ p, findword (s ++ 0 :: junk) (w ++ wjunk) w.length = .ok (some p) ∧ p ≤ q := by
  have hlead : ∀ c, isLeadingWhitespace c = true ↔ sepBefore c := by
    intro c
    unfold isLeadingWhitespace sepBefore
    rw [List.contains_iff_mem]; rfl
  have htrail : ∀ c, isTrailingWhitespace c = true ↔ sepAfter c := by
    intro c
    unfold isTrailingWhitespace sepAfter sepBefore
    rw [Bool.or_eq_true, List.contains_iff_mem, beq_iff_eq]; rfl
  have hwl : 0 < w.length := List.length_pos_iff.2 hw
  have hq1 := hq.1.1
  have key : ∀ fuel base res, base ≤ q → res < s.length → s.length + 1 - base ≤ fuel →
      ∃ p, findwordLoop (s ++ 0 :: junk) (w ++ wjunk) w.length fuel base res = .ok (some p) ∧ p ≤ q := by
    intro fuel
    induction fuel with
    | zero => intro base res h1 h2 h3; omega
    | succ fuel ih =>
      intro base res hb hr hf
      unfold findwordLoop
      rw [rd_append_left hr, rd_ok hr]
      simp only [ok_bind]
      have hnz : s[res] ≠ 0 := fun h => h0 (h ▸ List.getElem_mem _)
      rw [if_neg hnz, List.drop_append_of_le_length (by omega)]
      have hmd : MatchAt UcEq (s.drop base) w (q - base) := by
        refine ⟨by rw [List.length_drop]; omega, fun j hj => ?_⟩
        obtain ⟨c, h1, h2⟩ := hq.1.2 j hj
        refine ⟨c, ?_, h2⟩
        rw [List.getElem?_drop, ← h1]; congr 1; omega
      have hld : q - base = 0 ∨ ∃ c, (s.drop base)[q - base - 1]? = some c ∧ sepBefore c := by
        by_cases he : q - base = 0
        · exact .inl he
        · rcases hq.2.1 with h | ⟨c, h1, h2⟩
          · omega
          · refine .inr ⟨c, ?_, h2⟩
            rw [List.getElem?_drop, ← h1]; congr 1; omega
      obtain ⟨o, ho, hle⟩ := strstr_reach (junk := junk) (wjunk := wjunk) (fun h => h0 (List.mem_of_mem_drop h)) hw hsep (q - base) hmd hld
      rw [ho]
      simp only [ok_bind]
      by_cases hqo : base + o = q
      · have hright : ∃ c, rd (s ++ 0 :: junk) (base + o + w.length) = .ok c ∧ (c == 0 || isTrailingWhitespace c) = true := by
          rw [hqo]
          rcases hq.2.2 with h | ⟨c, h1, h2⟩
          · exact ⟨0, by rw [h, rd_append_right (by omega)]; simp, by simp⟩
          · have hlt : q + w.length < s.length := by
              rcases Nat.lt_or_ge (q + w.length) s.length with h | h
              · exact h
              · rw [List.getElem?_eq_none h] at h1; cases h1
            rw [List.getElem?_eq_getElem hlt] at h1
            cases h1
            exact ⟨_, by rw [rd_append_left hlt, rd_ok hlt], by rw [(htrail _).2 h2]; simp⟩
        obtain ⟨c, hc, hcr⟩ := hright
        refine ⟨q, ?_, Nat.le_refl _⟩
        by_cases ho0 : base + o = base
        · rw [if_pos ho0]
          simp only [pure_eq_ok, ok_bind, if_true, hc, hcr, Bool.true_and]
          rw [hqo]
        · rw [if_neg ho0]
          have hlt : base + o - 1 < s.length := by omega
          rw [rd_append_left hlt, rd_ok hlt]
          have hl : isLeadingWhitespace s[base + o - 1] = true := by
            rw [hlead]
            rcases hq.2.1 with h | ⟨d, h1, h2⟩
            · omega
            · have h3 : s[base + o - 1]? = some d := by rw [hqo]; exact h1
              rw [List.getElem?_eq_getElem hlt] at h3
              cases h3
              exact h2
          simp only [pure_eq_ok, ok_bind, hl, if_true, hc, hcr, Bool.true_and]
          rw [hqo]
      · have hnext := ih (base + o + 1) (base + o) (by omega) (by omega) (by omega)
        have hfin : ∀ b : Bool, ∃ p, (if b = true then (Except.ok (some (base + o)) : C (Option Nat)) else findwordLoop (s ++ 0 :: junk) (w ++ wjunk) w.length fuel (base + o + 1) (base + o)) = .ok (some p) ∧ p ≤ q := by
          intro b
          cases b
          · simpa using hnext
          · exact ⟨base + o, rfl, by omega⟩
        have hlt2 : base + o + w.length < (s ++ 0 :: junk).length := by simp; omega
        rw [rd_ok hlt2]
        by_cases ho0 : base + o = base
        · rw [if_pos ho0]
          simp only [pure_eq_ok, ok_bind, if_true, Bool.true_and]
          exact hfin _
        · rw [if_neg ho0]
          have hlt : base + o - 1 < s.length := by omega
          rw [rd_append_left hlt, rd_ok hlt]
          simp only [pure_eq_ok, ok_bind]
          cases isLeadingWhitespace s[base + o - 1]
          · simp only [Bool.false_eq_true, if_false, ok_bind, Bool.false_and]
            simpa using hnext
          · simp only [if_true, ok_bind, Bool.true_and]
            exact hfin _
  exact key _ 0 0 (by omega) (by omega) (by simp)

end Ulz.Words

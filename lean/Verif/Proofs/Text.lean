import Verif.Model.Text
import Verif.Spec.Text
import Verif.Proofs.Hex
import Verif.Props.Numbers
set_option linter.unusedSimpArgs false
set_option linter.unusedVariables false
namespace Ulz.Text
open Spec Numbers.Spec

/-! ### scan -/

theorem scan_eq (test : Byte → Byte → Bool) (nd : List Byte) (k : Nat) (hay : List Byte) (pos i save : Nat) :
    scan test nd k hay pos i save =
      if i = k then pure (some save)
      else match hay with
      | [] => .error .oobRead
      | c :: hay' =>
        if c = 0 then pure none
        else (do
          let save := if i = 0 then pos else save
          let n ← rd nd i
          if test c n then scan test nd k hay' (pos + 1) (i + 1) save
          else scan test nd k hay' (pos + 1) 0 save) := by
  rw [scan.eq_def]
  rfl

theorem scan_main (test : Byte → Byte → Bool) (w wj junk : List Byte) (hw : w ≠ []) :
    ∀ (s pre : List Byte) (i save : Nat), i ≤ w.length → i ≤ pre.length →
    (∀ j, (h : j < i) → (hj : j < w.length) → ∃ c, pre[pre.length - i + j]? = some c ∧ test c w[j] = true) →
    (0 < i → save = pre.length - i) → 0 ∉ s →
    ∃ r, scan test (w ++ wj) w.length (s ++ 0 :: junk) pre.length i save = .ok r ∧
      (∀ p, r = some p → pre.length - i ≤ p ∧ MatchAt (fun c n => test c n = true) (pre ++ s) w p) ∧
      ((∃ a, ∀ x ∈ w, x = a) →
        (∀ p, r = some p → ∀ q, pre.length - i ≤ q → q < p → ¬ MatchAt (fun c n => test c n = true) (pre ++ s) w q) ∧
        (r = none → ∀ q, pre.length - i ≤ q → ¬ MatchAt (fun c n => test c n = true) (pre ++ s) w q))
  | s, pre, i, save, hi, hip, hm, hs, h0 => by
    have hwl : 0 < w.length := List.length_pos_iff.2 hw
    rw [scan_eq]
    by_cases hik : i = w.length
    · rw [if_pos hik]
      have hsv : save = pre.length - i := hs (by omega)
      refine ⟨some save, rfl, ?_, ?_⟩
      · intro p hp
        cases hp
        refine ⟨by omega, by simp; omega, ?_⟩
        intro j hj
        obtain ⟨c, h1, h2⟩ := hm j (by omega) hj
        refine ⟨c, ?_, h2⟩
        rw [hsv, List.getElem?_append_left (by omega)]
        exact h1
      · intro _
        refine ⟨?_, by simp⟩
        intro p hp q h1 h2
        cases hp; omega
    · rw [if_neg hik]
      cases s with
      | nil =>
        refine ⟨none, by simp, by simp, fun _ => ⟨by simp, ?_⟩⟩
        intro _ q hq hmq
        have := hmq.1
        simp at this
        omega
      | cons c s =>
        have hc : c ≠ 0 := fun h => h0 (by first | exact List.mem_cons_of_mem _ h | (rw [h]; exact List.mem_cons_self))
        have h0' : 0 ∉ s := fun h => h0 (by first | exact List.mem_cons_of_mem _ h | (rw [h]; exact List.mem_cons_self))
        simp only [List.cons_append, if_neg hc]
        have hrd : rd (w ++ wj) i = .ok w[i] := by
          rw [rd_append_left (by omega), rd_ok (by omega)]
        rw [hrd]
        simp only [ok_bind]
        have e : pre.length + 1 = (pre ++ [c]).length := by simp
        have e2 : pre ++ c :: s = (pre ++ [c]) ++ s := by simp
        by_cases ht : test c w[i] = true
        · rw [if_pos ht, e, e2]
          have ih := scan_main test w wj junk hw s (pre ++ [c]) (i + 1) (if i = 0 then pre.length else save)
            (by omega) (by simp; omega) (by
              intro j h1 h2
              by_cases hji : j = i
              · subst hji
                refine ⟨c, ?_, ht⟩
                rw [List.getElem?_append_right (by simp; omega)]
                simp [show pre.length - j + j - pre.length = 0 by omega]
              · obtain ⟨c', h3, h4⟩ := hm j (by omega) h2
                refine ⟨c', ?_, h4⟩
                simp only [List.length_append, List.length_singleton]
                rw [List.getElem?_append_left (by omega)]
                rw [← h3]; congr 1; omega)
            (by intro _; by_cases hi0 : i = 0
                · rw [if_pos hi0]; simp; omega
                · rw [if_neg hi0, hs (by omega)]; simp)
            h0'
          have e3 : (pre ++ [c]).length - (i + 1) = pre.length - i := by simp
          rw [e3] at ih
          exact ih
        · rw [if_neg ht, e, e2]
          obtain ⟨r, hr, h1, h2⟩ := scan_main test w wj junk hw s (pre ++ [c]) 0
            (if i = 0 then pre.length else save) (by omega) (by omega) (by intro j h; omega) (by omega) h0'
          have hbad : (∃ a, ∀ x ∈ w, x = a) → ∀ q, pre.length - i ≤ q → q < pre.length + 1 →
              ¬ MatchAt (fun c n => test c n = true) (pre ++ [c] ++ s) w q := by
            rintro ⟨a, ha⟩ q hq hq' ⟨hm1, hm2⟩
            obtain ⟨c', h3, h4⟩ := hm2 (pre.length - q) (by omega)
            have : (pre ++ [c] ++ s)[q + (pre.length - q)]? = some c := by
              rw [show q + (pre.length - q) = pre.length by omega]; simp
            rw [this] at h3; cases h3
            rw [ha _ (List.getElem_mem _)] at h4
            rw [ha w[i] (List.getElem_mem _)] at ht
            exact ht h4
          refine ⟨r, hr, ?_, ?_⟩
          · intro p hp
            have := h1 p hp
            refine ⟨?_, this.2⟩
            have := this.1; simp at this; omega
          · intro hconst
            have h3 := h2 hconst
            constructor
            · intro p hp q hq hqp
              by_cases hlt : q < pre.length + 1
              · exact hbad hconst q hq hlt
              · exact h3.1 p hp q (by simp; omega) hqp
            · intro hn q hq
              by_cases hlt : q < pre.length + 1
              · exact hbad hconst q hq hlt
              · exact h3.2 hn q (by simp; omega)
  termination_by s => s.length

/-- A run of matching characters only advances the counters. -/
theorem scan_run (test : Byte → Byte → Bool) (w wj : List Byte) (rest : List Byte) :
    ∀ (xs : List Byte) (pos i save : Nat), i + xs.length ≤ w.length → 0 ∉ xs →
    (∀ j, (h : j < xs.length) → (h2 : i + j < w.length) → test xs[j] w[i + j] = true) →
    scan test (w ++ wj) w.length (xs ++ rest) pos i save =
      scan test (w ++ wj) w.length rest (pos + xs.length) (i + xs.length)
        (if i = 0 ∧ xs ≠ [] then pos else save)
  | [], pos, i, save, h, h0, hm => by simp
  | x :: xs, pos, i, save, h, h0, hm => by
    simp only [List.length_cons] at h
    have hx : x ≠ 0 := fun h => h0 (by first | exact List.mem_cons_of_mem _ h | (rw [h]; exact List.mem_cons_self))
    have h0' : 0 ∉ xs := fun h => h0 (by first | exact List.mem_cons_of_mem _ h | (rw [h]; exact List.mem_cons_self))
    rw [scan_eq, if_neg (by omega)]
    simp only [List.cons_append, if_neg hx]
    have hrd : rd (w ++ wj) i = .ok w[i] := by
      rw [rd_append_left (by omega), rd_ok (by omega)]
    rw [hrd]
    simp only [ok_bind]
    rw [if_pos (by have := hm 0 (by simp) (by omega); simpa using this)]
    rw [scan_run test w wj rest xs (pos + 1) (i + 1) _ (by omega) h0' (by
      intro j h1 h2
      have := hm (j + 1) (by simpa using h1) (by omega)
      simpa [show i + (j + 1) = i + 1 + j by omega] using this)]
    have e1 : pos + 1 + xs.length = pos + (x :: xs).length := by simp; omega
    have e2 : i + 1 + xs.length = i + (x :: xs).length := by simp; omega
    rw [e1, e2]
    congr 1
    by_cases hi : i = 0 <;> simp [hi]

theorem testUc_iff (c n : Byte) : testUc c n = true ↔ UcEq c n := by
  have h : ∀ c : Byte, (if isLower c then c - (ch 'a' - ch 'A') else c) = up c := by decide +kernel
  unfold testUc UcEq
  rw [h, beq_iff_eq]

theorem testStar_iff (c n : Byte) : testStar c n = true ↔ StarEq c n := by
  have h : ch '*' = (42 : Byte) := by decide
  unfold testStar StarEq
  rw [h]
  by_cases h1 : n = 42 <;> by_cases h2 : c = n <;> simp [h1, h2]

theorem MatchAt_congr {R S : Byte → Byte → Prop} (h : ∀ c n, R c n ↔ S c n) (s w : List Byte) (p : Nat) :
    MatchAt R s w p ↔ MatchAt S s w p := by
  simp only [MatchAt, h]

end Ulz.Text

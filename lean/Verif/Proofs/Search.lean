import Verif.Props.Text
import Verif.Spec.Search
/-! Helper lemmas for C233. -/
namespace Ulz.Search
open Ulz.Text Ulz.Text.Spec Ulz.Search.Spec

variable {R : Byte → Byte → Prop} {s w : List Byte}

theorem fails_unique {p k k' : Nat} (h : Fails R s w p k) (h' : Fails R s w p k') : k = k' := by
  obtain ⟨a, hk, c, b, d⟩ := h
  obtain ⟨a', hk', c', b', d'⟩ := h'
  rcases Nat.lt_trichotomy k k' with x | x | x
  · obtain ⟨e, e1, e2⟩ := a' k hk x
    rw [b] at e1
    injection e1 with e1
    exact absurd (e1 ▸ e2) d
  · exact x
  · obtain ⟨e, e1, e2⟩ := a k' hk' x
    rw [b'] at e1
    injection e1 with e1
    exact absurd (e1 ▸ e2) d'

theorem not_fails {p k : Nat} (h : MatchAt R s w p) : ¬ Fails R s w p k := by
  rintro ⟨-, hk, c, b, d⟩
  obtain ⟨e, e1, e2⟩ := h.2 k hk
  rw [b] at e1
  injection e1 with e1
  exact d (e1 ▸ e2)

theorem chain {p : Nat} (hp : Tried R s w p) : ∀ {q : Nat}, Tried R s w q → q < p → ∃ k, Fails R s w q k ∧ q + k + 1 ≤ p := by
  induction hp with
  | first => intro q _ h; omega
  | @next p k _ hf ih =>
    have gap : ∀ {q : Nat}, Tried R s w q → q ≤ p ∨ p + k + 1 ≤ q := by
      intro q hq
      induction hq with
      | first => exact .inl (Nat.zero_le _)
      | @next q k' hq' hf' ihq =>
        rcases Nat.lt_trichotomy q p with y | y | y
        · obtain ⟨j, h1, h2⟩ := ih hq' y
          have := fails_unique h1 hf'
          omega
        · subst y
          have := fails_unique hf hf'
          omega
        · omega
    intro q hq h
    rcases Nat.lt_trichotomy q p with x | x | x
    · obtain ⟨j, h1, h2⟩ := ih hq x
      exact ⟨j, h1, by omega⟩
    · exact ⟨k, by rw [x]; exact hf, by omega⟩
    · have := gap hq
      omega

theorem tried_unique {p q : Nat} (hp : Tried R s w p) (hq : Tried R s w q) (mp : MatchAt R s w p) (mq : MatchAt R s w q) : p = q := by
  rcases Nat.lt_trichotomy p q with x | x | x
  · obtain ⟨k, h, -⟩ := chain hq hp x
    exact absurd h (not_fails mp)
  · exact x
  · obtain ⟨k, h, -⟩ := chain hp hq x
    exact absurd h (not_fails mq)

/-- The scan tries those places. -/
theorem scan_tried (test : Byte → Byte → Bool) (w wj junk : List Byte) (hw : w ≠ []) :
    ∀ (s pre : List Byte) (i save : Nat), i ≤ w.length → i ≤ pre.length →
    (∀ j, (h : j < i) → (hj : j < w.length) → ∃ c, pre[pre.length - i + j]? = some c ∧ test c w[j] = true) →
    (0 < i → save = pre.length - i) → 0 ∉ s →
    Tried (fun c n => test c n = true) (pre ++ s) w (pre.length - i) →
    ∃ r, scan test (w ++ wj) w.length (s ++ 0 :: junk) pre.length i save = .ok r ∧
      (∀ p, r = some p → Tried (fun c n => test c n = true) (pre ++ s) w p ∧ MatchAt (fun c n => test c n = true) (pre ++ s) w p) ∧
      (r = none → ∀ q, Tried (fun c n => test c n = true) (pre ++ s) w q → ¬ MatchAt (fun c n => test c n = true) (pre ++ s) w q)
  | s, pre, i, save, hi, hip, hm, hs, h0, ht => by
    have hwl : 0 < w.length := List.length_pos_iff.2 hw
    have hm' : ∀ j, (hj : j < w.length) → j < i → ∃ c, (pre ++ s)[pre.length - i + j]? = some c ∧ test c w[j] = true := by
      intro j hj h
      obtain ⟨c, h1, h2⟩ := hm j h hj
      refine ⟨c, ?_, h2⟩
      rw [List.getElem?_append_left (by omega)]
      exact h1
    rw [scan_eq]
    by_cases hik : i = w.length
    · rw [if_pos hik]
      refine ⟨some save, rfl, ?_, by intro h; cases h⟩
      intro p hp
      injection hp with hp
      have hsv : save = pre.length - i := hs (by omega)
      rw [← hp, hsv]
      refine ⟨ht, by simp; omega, ?_⟩
      intro j hj
      exact hm' j hj (by omega)
    · rw [if_neg hik]
      cases s with
      | nil =>
        refine ⟨none, by simp, by simp, ?_⟩
        intro _ q hq hmq
        have h1 := hmq.1
        have h2 : q < pre.length - i := by
          rcases Nat.lt_trichotomy q (pre.length - i) with x | x | x
          · exact x
          · simp at h1; omega
          · obtain ⟨k, ⟨-, hk, c, b, d⟩, -⟩ := chain hq ht x
            rcases Nat.lt_or_ge k i with y | y
            · obtain ⟨e, e1, e2⟩ := hm' k hk y
              rw [b] at e1
              injection e1 with e1
              exact absurd (e1 ▸ e2) d
            · rw [List.getElem?_eq_none (by simp; omega)] at b
              cases b
        obtain ⟨k, h, -⟩ := chain ht hq h2
        exact not_fails hmq h
      | cons c s =>
        have hc : c ≠ 0 := fun h => h0 (by rw [h]; exact List.mem_cons_self)
        have h0' : 0 ∉ s := fun h => h0 (List.mem_cons_of_mem _ h)
        simp only [List.cons_append, if_neg hc]
        have hrd : rd (w ++ wj) i = .ok w[i] := by
          rw [rd_append_left (by omega), rd_ok (by omega)]
        rw [hrd]
        simp only [ok_bind]
        have e : pre.length + 1 = (pre ++ [c]).length := by simp
        have e2 : pre ++ c :: s = (pre ++ [c]) ++ s := by simp
        have hcat : (pre ++ c :: s)[pre.length]? = some c := by simp
        by_cases htest : test c w[i] = true
        · rw [if_pos htest, e, e2]
          refine scan_tried test w wj junk hw s (pre ++ [c]) (i + 1) (if i = 0 then pre.length else save)
            (by omega) (by simp; omega) (by
              intro j h1 h2
              by_cases hji : j = i
              · subst hji
                refine ⟨c, ?_, htest⟩
                rw [List.getElem?_append_right (by simp; omega)]
                simp [show pre.length - j + j - pre.length = 0 by omega]
              · obtain ⟨c', h3, h4⟩ := hm j (by omega) h2
                refine ⟨c', ?_, h4⟩
                simp only [List.length_append, List.length_singleton]
                rw [List.getElem?_append_left (by omega)]
                rw [← h3]; congr 1; omega)
            (by intro _; by_cases hi0 : i = 0
                · rw [if_pos hi0]; simp; omega
                · rw [if_neg hi0, hs (by omega)]; simp)
            h0' ?_
          have e3 : (pre ++ [c]).length - (i + 1) = pre.length - i := by simp
          rw [e3, ← e2]
          exact ht
        · rw [if_neg htest, e, e2]
          refine scan_tried test w wj junk hw s (pre ++ [c]) 0 (if i = 0 then pre.length else save) (by omega) (by omega)
            (by intro j h; omega) (by omega) h0' ?_
          have hf : Fails (fun c n => test c n = true) (pre ++ c :: s) w (pre.length - i) i := by
            refine ⟨hm', by omega, c, ?_, htest⟩
            rw [show pre.length - i + i = pre.length by omega]
            exact hcat
          have := Tried.next ht hf
          rw [show pre.length - i + i + 1 = (pre ++ [c]).length - 0 by simp; omega, e2] at this
          exact this

/-- A match is passed exactly if a place in front of it that is tried fails with a character at the match or behind its start. -/
theorem passed_iff (hw : w ≠ []) {r : Option Nat} (hr : ∀ p, r = some p ↔ Tried R s w p ∧ MatchAt R s w p) {q : Nat} (hq : MatchAt R s w q) :
    (∀ p, r = some p → q < p) ↔ ∃ p k, Tried R s w p ∧ Fails R s w p k ∧ p < q ∧ q ≤ p + k := by
  have hwl : 0 < w.length := List.length_pos_iff.2 hw
  constructor
  · intro h
    -- the last place tried that is not behind `q`
    have : ∀ d p, Tried R s w p → p ≤ q → q - p ≤ d → ∃ p k, Tried R s w p ∧ Fails R s w p k ∧ p < q ∧ q ≤ p + k := by
      intro d
      induction d with
      | zero =>
        intro p hp hpq hd
        obtain rfl : p = q := by omega
        exact absurd (h p ((hr p).2 ⟨hp, hq⟩)) (Nat.lt_irrefl _)
      | succ d ih =>
        intro p hp hpq hd
        by_cases hm : MatchAt R s w p
        · have := h p ((hr p).2 ⟨hp, hm⟩)
          omega
        · have hl : p + w.length ≤ s.length := by have := hq.1; omega
          obtain ⟨k, hf⟩ : ∃ k, Fails R s w p k := by
            have : ∀ n ≤ w.length, (∀ j, (h : j < w.length) → j < n → ∃ c, s[p + j]? = some c ∧ R c w[j]) ∨ ∃ k, Fails R s w p k := by
              intro n
              induction n with
              | zero => intro _; exact .inl (by intro j _ h; omega)
              | succ n ihn =>
                intro hn
                rcases ihn (by omega) with x | x
                · have hx : p + n < s.length := by omega
                  by_cases y : R s[p + n] w[n]
                  · refine .inl fun j hj hjn => ?_
                    by_cases z : j = n
                    · subst z; exact ⟨_, List.getElem?_eq_getElem hx, y⟩
                    · exact x j hj (by omega)
                  · exact .inr ⟨n, x, by omega, _, List.getElem?_eq_getElem hx, y⟩
                · exact .inr x
            rcases this w.length (Nat.le_refl _) with x | x
            · exact absurd ⟨hl, fun j hj => x j hj hj⟩ hm
            · exact x
          have hpq' : p < q := by
            rcases Nat.lt_or_ge p q with x | x
            · exact x
            · obtain rfl : p = q := by omega
              exact absurd hq hm
          rcases Nat.lt_or_ge q (p + k + 1) with x | x
          · exact ⟨p, k, hp, hf, hpq', by omega⟩
          · exact ih _ (.next hp hf) x (by omega)
    exact this q 0 .first (Nat.zero_le _) (by omega)
  · rintro ⟨p, k, hp, hf, h1, h2⟩ p' hp'
    obtain ⟨t, m⟩ := (hr p').1 hp'
    rcases Nat.lt_trichotomy p' p with x | x | x
    · obtain ⟨j, h, -⟩ := chain hp t x
      exact absurd h (not_fails m)
    · subst x
      exact absurd hf (not_fails m)
    · obtain ⟨j, h, h3⟩ := chain t hp x
      have := fails_unique h hf
      omega

end Ulz.Search

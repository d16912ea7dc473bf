import Verif.Model.Scrub
import Verif.Proofs.Onepass
import Verif.Props.Stringptr
import Verif.Props.Sizes
set_option linter.unusedSimpArgs false
set_option linter.unusedVariables false
namespace Ulz.Scrub
open Ulz.Stringptr Ulz.Stringptr.Spec Ulz.Joinsplit Ulz.Swapback Ulz.Onepass

theorem contains_iff {s a junk aj : List Byte} (hs : s.length < 2 ^ 64) :
    ∃ r, contains ⟨s ++ junk, s.length⟩ ⟨a ++ aj, a.length⟩ = .ok r ∧ (r = true ↔ a <:+: s) := by
  obtain ⟨r, h1, h2⟩ := Props.stringptr_contains_correct ⟨s ++ junk, s.length⟩ ⟨a ++ aj, a.length⟩ s a ⟨rfl, junk, rfl⟩ ⟨rfl, aj, rfl⟩ hs
  refine ⟨r, h1, h2.trans ?_⟩
  constructor
  · rintro ⟨u, v, e⟩; exact ⟨u, v, e.symm⟩
  · rintro ⟨u, v, e⟩; exact ⟨u, v, e.symm⟩

theorem split_two {a s : List Byte} {ps : List (List Byte)} (h : Split a s ps) (hi : a <:+: s) : 2 ≤ ps.length := by
  cases h with
  | last h => exact absurd hi h
  | cons _ h2 =>
    have := List.length_pos_iff.2 (split_ne h2)
    simp only [List.length_cons]
    omega

theorem shrink {a b s : List Byte} (hl : b.length < a.length) {ps : List (List Byte)} (h : Split a s ps) :
    (join b ps).length ≤ s.length ∧ (a <:+: s → (join b ps).length < s.length) := by
  have e1 := join_length' a ps (split_ne h)
  have e2 := join_length' b ps (split_ne h)
  rw [split_join h] at e1
  obtain ⟨k, hk⟩ : ∃ k, ps.length = k + 1 := ⟨ps.length - 1, by have := List.length_pos_iff.2 (split_ne h); omega⟩
  rw [hk, Nat.add_mul, Nat.one_mul] at e1 e2
  have h1 : k * b.length ≤ k * a.length := Nat.mul_le_mul_left k (by omega)
  refine ⟨by omega, fun hi => ?_⟩
  have h2 := split_two h hi
  have h3 : k * b.length < k * a.length := Nat.mul_lt_mul_of_pos_left hl (by omega)
  omega

theorem sub_join (a : List Byte) : ∀ ps : List (List Byte), (join [] ps).Sublist (join a ps)
  | [] => by simp [join]
  | [p] => by simp [join]
  | p :: q :: ps => by
    rw [join_cons (sep := []) (x := p) (by simp), join_cons (sep := a) (x := p) (by simp), List.append_nil]
    have h1 : p.Sublist (p ++ a) := List.sublist_append_left p a
    exact h1.append (sub_join a (q :: ps))

theorem join_has {b : List Byte} : ∀ {ps : List (List Byte)}, 2 ≤ ps.length → b <:+: join b ps
  | p :: q :: ps, _ => by
    rw [join_cons (by simp)]
    exact ⟨p, join b (q :: ps), rfl⟩

theorem scrub_ends {f : Nat → Byte} {a aj b bj : List Byte} (ha : a ≠ []) (hl : b.length < a.length) : ∀ (n : Nat) (s junk : List Byte) (x : Byte),
    s.length < n → s.length + 17 < 2 ^ 64 →
    ∃ r j, scrub (some f) ⟨a ++ aj, a.length⟩ ⟨b ++ bj, b.length⟩ n ⟨s ++ x :: junk, s.length⟩ = .ok (some ⟨r ++ 0 :: j, r.length⟩) ∧
      ¬a <:+: r ∧ r.length ≤ s.length ∧ (b = [] → r.Sublist s) ∧ a <:+: s ∨
    (scrub (some f) ⟨a ++ aj, a.length⟩ ⟨b ++ bj, b.length⟩ n ⟨s ++ x :: junk, s.length⟩ = .ok (some ⟨s ++ x :: junk, s.length⟩) ∧ ¬a <:+: s)
  | 0, s, _, _, h, _ => absurd h (by omega)
  | n + 1, s, junk, x, h, hb => by
    obtain ⟨r, h1, h2⟩ := contains_iff (s := s) (a := a) (junk := x :: junk) (aj := aj) (by omega)
    by_cases hi : a <:+: s
    · obtain ⟨pcs, buf, g1, g2⟩ := Props.stringptr_replace_correct f s junk a aj b bj x ha (by omega) (s.length + 2) (Nat.le_refl _)
        (fun q hq => by have := (shrink (b := b) hl hq).1; omega)
      have hlt := (shrink hl g1).2 hi
      have e : scrub (some f) ⟨a ++ aj, a.length⟩ ⟨b ++ bj, b.length⟩ (n + 1) ⟨s ++ x :: junk, s.length⟩ =
          scrub (some f) ⟨a ++ aj, a.length⟩ ⟨b ++ bj, b.length⟩ n ⟨join b pcs ++ [0], (join b pcs).length⟩ := by
        rw [scrub, h1, h2.2 hi]
        simp only [ok_bind, if_true, g2]
      have hsub : b = [] → (join b pcs).Sublist s := by
        rintro rfl
        have := sub_join a pcs
        rwa [split_join g1] at this
      obtain ⟨r, j, ⟨k1, k2, k3, k4, _⟩ | ⟨k1, k2⟩⟩ := scrub_ends (aj := aj) (bj := bj) (f := f) ha hl n (join b pcs) [] 0 (by omega) (by omega)
      · exact ⟨r, j, .inl ⟨e.trans k1, k2, by omega, fun h0 => (k4 h0).trans (hsub h0), hi⟩⟩
      · exact ⟨join b pcs, [], .inl ⟨e.trans k1, k2, by omega, hsub, hi⟩⟩
    · refine ⟨[], [], .inr ⟨?_, hi⟩⟩
      have : r = false := by
        cases r
        · rfl
        · exact absurd (h2.1 rfl) hi
      rw [scrub, h1, this]
      rfl

theorem scrub_never {f : Nat → Byte} {a aj b bj : List Byte} (ha : a ≠ []) (hab : a <:+: b) : ∀ (n : Nat) (s junk : List Byte) (x : Byte),
    s.length + 1 < 2 ^ 64 → a <:+: s →
    ∀ r, scrub (some f) ⟨a ++ aj, a.length⟩ ⟨b ++ bj, b.length⟩ n ⟨s ++ x :: junk, s.length⟩ ≠ .ok r
  | 0, s, junk, x, _, _, r => by
    rw [scrub]
    exact fun h => nomatch h
  | n + 1, s, junk, x, h, hi, r => by
    obtain ⟨c, h1, h2⟩ := contains_iff (s := s) (a := a) (junk := x :: junk) (aj := aj) (by omega)
    obtain ⟨pcs, _, hp, _⟩ := Props.stringptr_splits_correct s junk a aj x (fun _ => true) ha (by omega)
    have hiff := Props.stringptr_replace_iff f s junk a aj b bj x ha h (s.length + 2) (Nat.le_refl _) pcs hp
    by_cases hfit : (join b pcs).length + 17 < 2 ^ 64
    · obtain ⟨pcs', buf, g1, g2⟩ := Props.stringptr_replace_correct f s junk a aj b bj x ha h (s.length + 2) (Nat.le_refl _)
        (fun q hq => by rw [split_unique hq hp]; exact hfit)
      obtain rfl := split_unique hp g1
      have e : scrub (some f) ⟨a ++ aj, a.length⟩ ⟨b ++ bj, b.length⟩ (n + 1) ⟨s ++ x :: junk, s.length⟩ =
          scrub (some f) ⟨a ++ aj, a.length⟩ ⟨b ++ bj, b.length⟩ n ⟨join b pcs ++ [0], (join b pcs).length⟩ := by
        rw [scrub, h1, h2.2 hi]
        simp only [ok_bind, if_true, g2]
      rw [e]
      exact scrub_never ha hab n _ _ _ (by omega) (hab.trans (join_has (split_two hp hi))) r
    · rw [scrub, h1, h2.2 hi]
      simp only [ok_bind, if_true]
      cases hr : replace (some f) ⟨s ++ x :: junk, s.length⟩ ⟨a ++ aj, a.length⟩ ⟨b ++ bj, b.length⟩ (s.length + 2) with
      | ok v => exact absurd (hiff.1 ⟨v, hr⟩) hfit
      | error u => exact fun h => nomatch h

end Ulz.Scrub

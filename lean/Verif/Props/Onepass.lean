import Verif.Proofs.Onepass
/-! # C245: whether replacing leaves nothing to replace -/
namespace Ulz.Props
open Ulz.Stringptr Ulz.Stringptr.Spec Ulz.Joinsplit Ulz.Swapback Ulz.Onepass

/-- **C245** `stringptr_replace` with a different replacement returns the text unchanged exactly if the pattern is not in it. -/
theorem onepass_same_iff (f : Nat → Byte) (s junk a aj b bj : List Byte) (x : Byte) (ha : a ≠ []) (hne : a ≠ b) (h1 : s.length + 1 < 2 ^ 64)
    (h2 : ∀ pcs, Split a s pcs → (join b pcs).length + 17 < 2 ^ 64) (fuel : Nat) (hf : s.length + 2 ≤ fuel) :
    ∃ buf t, replace (some f) ⟨s ++ x :: junk, s.length⟩ ⟨a ++ aj, a.length⟩ ⟨b ++ bj, b.length⟩ fuel = .ok (buf, some t) ∧
      (t = ⟨s ++ [0], s.length⟩ ↔ ¬a <:+: s) := by
  obtain ⟨pcs, buf, g1, g2⟩ := stringptr_replace_correct f s junk a aj b bj x ha h1 fuel hf h2
  refine ⟨buf, _, g2, ?_⟩
  rw [← same_iff ha hne g1]
  constructor
  · intro h
    injection h with e _
    exact (List.append_inj' e rfl).1
  · intro h
    rw [h]

example : ∃ buf t, replace (some fun _ => 7) ⟨bytes! "a/b" ++ 0 :: [], 3⟩ ⟨bytes! "../" ++ [], 3⟩ ⟨[] ++ [], 0⟩ 9 = .ok (buf, some t) ∧
    (t = ⟨bytes! "a/b" ++ [0], 3⟩ ↔ ¬bytes! "../" <:+: bytes! "a/b") :=
  onepass_same_iff (fun _ => 7) (bytes! "a/b") [] (bytes! "../") [] [] [] 0 (by decide) (by decide) (by decide)
    (fun pcs h => by rw [split_unique h (.last (by decide))]; decide) 9 (by decide)

/-- **C245** Deleting a text with one call of `stringptr_replace` leaves no occurrence of it, whatever the string, exactly if the text
    consists of one character, once or repeated. -/
theorem onepass_delete_iff (f : Nat → Byte) (a aj bj : List Byte) (ha : a ≠ []) (hl : 2 * a.length + 17 < 2 ^ 64) :
    (∀ (s junk : List Byte) (x : Byte) (fuel : Nat) (buf : List Byte) (t : SP), s.length + 17 < 2 ^ 64 → s.length + 2 ≤ fuel →
      replace (some f) ⟨s ++ x :: junk, s.length⟩ ⟨a ++ aj, a.length⟩ ⟨[] ++ bj, 0⟩ fuel = .ok (buf, some t) →
      ¬a <:+: t.buf.take t.size) ↔ ∃ c n, a = List.replicate n c := by
  constructor
  · intro h
    match a, ha with
    | c :: r, _ =>
      refine Classical.byContradiction fun hn => ?_
      have hs := nested (c := c) (r := r) (fun h => hn ⟨c, _, List.eq_replicate_iff.2 ⟨rfl, h⟩⟩)
      simp only [List.length_cons] at hl
      obtain ⟨pcs, buf, g1, g2⟩ := stringptr_replace_correct f ([c] ++ (c :: r) ++ r) [] (c :: r) aj [] bj 0 (by simp)
        (by simp; omega) _ (Nat.le_refl _) (fun q hq => by rw [← split_unique hs hq]; simp [join]; omega)
      obtain rfl := split_unique hs g1
      refine h _ [] 0 _ buf _ (by simp; omega) (Nat.le_refl _) g2 ?_
      simp [join]
  · rintro ⟨c, n, rfl⟩ s junk x fuel buf t h1 h2 h3
    have hn : 0 < n := by
      rcases Nat.eq_zero_or_pos n with rfl | h
      · simp at ha
      · exact h
    have hle : ∀ pcs, Split (List.replicate n c) s pcs → (join [] pcs).length + 17 < 2 ^ 64 := by
      intro pcs hp
      have e1 := join_length' [] pcs (split_ne hp)
      have e2 := join_length' (List.replicate n c) pcs (split_ne hp)
      rw [split_join hp] at e2
      have : n ≤ pcs.length * n := Nat.le_mul_of_pos_left n (List.length_pos_iff.2 (split_ne hp))
      simp at e1 e2
      rw [e1]
      simp
      omega
    obtain ⟨pcs, buf', g1, g2⟩ := stringptr_replace_correct f s junk (List.replicate n c) aj [] bj x ha (by omega) fuel h2 hle
    have h3' := h3.symm.trans g2
    injection h3' with h3'
    injection h3' with _ h3'
    injection h3' with h3'
    rw [h3']
    simp only [List.take_left']
    rw [join_nil]
    exact run_clean hn g1

/-- the well-known case: "../" in a path -/
example : replace (some fun _ => 7) ⟨bytes! "....//" ++ [0], 6⟩ ⟨bytes! "../", 3⟩ ⟨[], 0⟩ 8 = .ok (bytes! ".." ++ [0] ++ bytes! "./" ++ bytes! "/" ++ [0], some ⟨bytes! "../" ++ [0], 3⟩) := by
  decide +kernel

/-- **C245** Replacing it by one character that is not in it leaves no occurrence. -/
theorem onepass_char (f : Nat → Byte) (s junk a aj bj : List Byte) (x c : Byte) (ha : a ≠ []) (hc : c ∉ a) (h1 : s.length + 17 < 2 ^ 64)
    (fuel : Nat) (hf : s.length + 2 ≤ fuel) :
    ∃ buf t, replace (some f) ⟨s ++ x :: junk, s.length⟩ ⟨a ++ aj, a.length⟩ ⟨[c] ++ bj, 1⟩ fuel = .ok (buf, some ⟨t ++ [0], t.length⟩) ∧
      ¬a <:+: t := by
  obtain ⟨pcs, buf, g1, g2⟩ := stringptr_replace_correct f s junk a aj [c] bj x ha (by omega) fuel hf (fun pcs hp => by
    have e1 := join_length' [c] pcs (split_ne hp)
    have e2 := join_length' a pcs (split_ne hp)
    rw [split_join hp] at e2
    obtain ⟨k, hk⟩ : ∃ k, pcs.length = k + 1 := ⟨pcs.length - 1, by have := List.length_pos_iff.2 (split_ne hp); omega⟩
    have : k ≤ k * a.length := Nat.le_mul_of_pos_right k (List.length_pos_iff.2 ha)
    rw [hk, Nat.add_mul, Nat.one_mul] at e1 e2
    simp only [List.length_cons, List.length_nil] at e1
    omega)
  exact ⟨buf, _, g2, char_clean ha hc pcs (split_free ha g1)⟩

example : ch '_' ∉ bytes! "../" := by decide

end Ulz.Props

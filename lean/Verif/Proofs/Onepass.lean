import Verif.Proofs.Swapback
set_option linter.unusedSimpArgs false
set_option linter.unusedVariables false
namespace Ulz.Onepass
open Ulz.Stringptr Ulz.Stringptr.Spec Ulz.Joinsplit Ulz.Swapback

theorem same_iff {a b t : List Byte} (ha : a ≠ []) (hne : a ≠ b) {qs : List (List Byte)} (h : Split a t qs) : join b qs = t ↔ ¬a <:+: t := by
  constructor
  · intro e
    cases h with
    | last h => exact h
    | @cons p rest ps h1 h2 =>
      exfalso
      have h0 := split_ne h2
      have hs := Split.cons h1 h2
      have e' : join b (p :: ps) = join a (p :: ps) := by rw [e, split_join hs]
      by_cases hl : a.length = b.length
      · have := join_ne hne hl (p :: ps) e'.symm
        have := List.length_pos_iff.2 h0
        simp only [List.length_cons] at *
        omega
      · have l1 := join_length' a (p :: ps) (by simp)
        have l2 := join_length' b (p :: ps) (by simp)
        rw [e'] at l2
        simp only [List.length_cons, Nat.add_mul, Nat.one_mul] at l1 l2
        have e3 : ps.length * a.length = ps.length * b.length := by omega
        exact hl (Nat.eq_of_mul_eq_mul_left (List.length_pos_iff.2 h0) e3)
  · intro hn
    rw [split_unique h (.last hn)]
    rfl

theorem join_nil : ∀ ps : List (List Byte), join [] ps = ps.flatten
  | [] => rfl
  | [p] => by simp [join]
  | p :: q :: ps => by rw [join_cons (by simp), join_nil (q :: ps)]; simp

theorem infix_at {a s : List Byte} : a <:+: s ↔ ∃ k, k ≤ s.length ∧ a <+: s.drop k := by
  constructor
  · rintro ⟨u, v, rfl⟩
    exact ⟨u.length, by simp only [List.length_append]; omega, by simp [List.append_assoc]⟩
  · rintro ⟨k, _, h⟩
    exact h.isInfix.trans (List.drop_suffix k s).isInfix

theorem run_clean {c : Byte} {n : Nat} (hn : 0 < n) {s : List Byte} {ps : List (List Byte)} (h : Split (List.replicate n c) s ps) :
    ¬List.replicate n c <:+: ps.flatten := by
  induction h with
  | last h => simpa using h
  | @cons p rest ps h1 h2 ih =>
    rw [List.flatten_cons]
    intro hi
    obtain ⟨k, hk, hpre⟩ := infix_at.1 hi
    by_cases hkp : p.length ≤ k
    · refine ih (infix_at.2 ⟨k - p.length, ?_, ?_⟩)
      · rw [List.length_append] at hk; omega
      · rw [List.drop_append, List.drop_eq_nil_of_le hkp, List.nil_append] at hpre
        exact hpre
    · have hkp : k < p.length := by omega
      rw [List.drop_append_of_le_length (by omega)] at hpre
      by_cases hl : n ≤ (p.drop k).length
      · have hp := List.prefix_of_prefix_length_le hpre (List.prefix_append _ _) (by simpa using hl)
        refine h1 k hkp ?_
        rw [List.append_assoc, List.drop_append_of_le_length (by omega)]
        exact hp.trans (List.prefix_append _ _)
      · -- all of p from k on is c
        have hp : p.drop k <+: List.replicate n c := List.prefix_of_prefix_length_le (List.prefix_append _ _) hpre (by simp; simp at hl; omega)
        obtain ⟨z, hz⟩ := hp
        have hz1 : p.drop k = List.replicate (p.drop k).length c := by
          refine List.eq_replicate_iff.2 ⟨rfl, fun x hx => ?_⟩
          have : x ∈ List.replicate n c := by rw [← hz]; simp [hx]
          exact (List.mem_replicate.1 this).2
        refine h1 k hkp ?_
        rw [List.append_assoc, List.drop_append_of_le_length (by omega), hz1, ← List.append_assoc, List.replicate_append_replicate]
        refine List.IsPrefix.trans ⟨List.replicate (p.drop k).length c, ?_⟩ (List.prefix_append _ _)
        rw [List.replicate_append_replicate, Nat.add_comm]

theorem shifted {c : Byte} : ∀ {l : List Byte}, l <+: c :: l → ∀ x ∈ l, x = c
  | [], _ => by simp
  | y :: l, h => by
    obtain ⟨rfl, h2⟩ := List.cons_prefix_cons.1 h
    intro x hx
    rcases List.mem_cons.1 hx with rfl | hx
    · rfl
    · exact shifted h2 x hx

theorem nested {c : Byte} {r : List Byte} (h : ¬∀ x ∈ c :: r, x = c) : Split (c :: r) ([c] ++ (c :: r) ++ r) [[c], r] := by
  refine .cons (fun k hk hp => h ?_) (.last fun hi => ?_)
  · obtain rfl : k = 0 := by simpa using hk
    rw [List.drop_zero] at hp
    have hp' : c :: r <+: c :: c :: r := by
      refine List.prefix_of_prefix_length_le hp ?_ (by simp)
      exact List.prefix_append (c :: c :: r) r
    exact shifted hp'
  · have := hi.length_le
    simp only [List.length_cons] at this
    omega

theorem char_clean {a : List Byte} {c : Byte} (ha : a ≠ []) (hc : c ∉ a) : ∀ ps : List (List Byte), (∀ p ∈ ps, ¬a <:+: p) → ¬a <:+: join [c] ps
  | [], _ => by rintro ⟨u, v, h⟩; simp [join, ha] at h
  | [p], h => by simpa [join] using h p (by simp)
  | p :: q :: ps, h => by
    rw [join_cons (by simp)]
    have ih := char_clean ha hc (q :: ps) (fun r hr => h r (by simp [hr]))
    generalize join [c] (q :: ps) = t at ih
    intro hi
    obtain ⟨k, hk, hpre⟩ := infix_at.1 hi
    rw [List.append_assoc] at hpre hk
    by_cases hkp : p.length < k
    · refine ih (infix_at.2 ⟨k - p.length - 1, by simp at hk; omega, ?_⟩)
      rw [List.drop_append, List.drop_eq_nil_of_le (by omega), List.nil_append, List.singleton_append] at hpre
      obtain ⟨j, hj⟩ : ∃ j, k - p.length = j + 1 := ⟨k - p.length - 1, by omega⟩
      rw [hj, List.drop_succ_cons] at hpre
      rw [hj]
      exact hpre
    · rw [List.drop_append_of_le_length (by omega)] at hpre
      by_cases hl : a.length ≤ (p.drop k).length
      · have hp := List.prefix_of_prefix_length_le hpre (List.prefix_append _ _) hl
        exact h p (by simp) (hp.isInfix.trans (List.drop_suffix k p).isInfix)
      · have hp : p.drop k ++ [c] <+: a := by
          refine List.prefix_of_prefix_length_le ?_ hpre (by simp at hl ⊢; omega)
          rw [← List.append_assoc]
          exact List.prefix_append _ _
        exact hc (hp.subset (by simp))

end Ulz.Onepass

import Verif.Model.Doslines
import Verif.Spec.Doslines
import Verif.Proofs.Joinsplit
import Verif.Props.Stringptr
set_option linter.unusedSimpArgs false
set_option linter.unusedVariables false
namespace Ulz.Doslines
open Ulz.Stringptr Ulz.Stringptr.Spec Ulz.Doslines.Spec Ulz.Joinsplit

theorem strip_of {t tail : List Byte} (h1 : ∀ c ∈ tail, c = ch '\r' ∨ c = ch '\n') (h2 : ∀ c, t.getLast? = some c → c ≠ ch '\r' ∧ c ≠ ch '\n') :
    strip (t ++ tail) = t := by
  unfold strip
  rw [List.reverse_append, List.dropWhile_append_of_pos (by intro c hc; simpa using h1 c (by simpa using hc))]
  rcases List.eq_nil_or_concat t with rfl | ⟨u, c, rfl⟩
  · rfl
  · have := h2 c (by simp)
    rw [List.concat_eq_append, List.reverse_append, List.reverse_singleton, List.singleton_append, List.dropWhile_cons_of_neg (by simpa using this)]
    simp

theorem strip_prefix (s : List Byte) : ∃ tail, s = strip s ++ tail ∧ ∀ c, (strip s).getLast? = some c → c ≠ ch '\r' ∧ c ≠ ch '\n' := by
  obtain ⟨t, tail, rfl, h1, h2, _⟩ := Props.stringptr_chomp_correct s []
  rw [strip_of h1 h2]
  exact ⟨tail, rfl, h2⟩

def flat (pcs : List (List Byte)) : List Byte := (pcs.map (· ++ [0])).flatten

theorem flat_join (junk : List Byte) : ∀ (pcs : List (List Byte)), pcs ≠ [] → join [0] pcs ++ 0 :: junk = flat pcs ++ junk
  | [], h => absurd rfl h
  | [p], _ => by simp [join, flat]
  | p :: q :: ps, _ => by
    rw [join_cons (by simp), List.append_assoc, flat_join junk (q :: ps) (by simp)]
    simp [flat]

theorem chompAll_spec (junk : List Byte) : ∀ (pcs : List (List Byte)) (A : List Byte), ∃ F qs,
    chompAll (A ++ flat pcs ++ junk) (offsets 1 A.length pcs) = .ok (A ++ F ++ junk, qs) ∧ Slices (A ++ F ++ junk) qs (pcs.map strip)
  | [], A => ⟨[], [], by simp [flat, offsets, chompAll], .nil⟩
  | p :: ps, A => by
    obtain ⟨t, tail, e, h1, h2, h3⟩ := Props.stringptr_chomp_correct p (0 :: flat ps ++ junk)
    have hz : List.replicate tail.length (0 : Byte) ++ [0] = 0 :: List.replicate tail.length 0 := by
      rw [← List.replicate_succ, List.replicate_succ']
    have hlen : (A ++ (t ++ List.replicate tail.length 0 ++ [0])).length = A.length + p.length + 1 := by
      rw [e]; simp [Nat.add_assoc]
    obtain ⟨F, qs, r1, r2⟩ := chompAll_spec junk ps (A ++ (t ++ List.replicate tail.length 0 ++ [0]))
    rw [hlen] at r1
    refine ⟨t ++ List.replicate tail.length 0 ++ [0] ++ F, (A.length, t.length) :: qs, ?_, ?_⟩
    · unfold offsets chompAll
      have d1 : (A ++ flat (p :: ps) ++ junk).drop A.length = p ++ (0 :: flat ps ++ junk) := by
        rw [List.append_assoc, List.drop_left]; simp [flat]
      have d2 : (A ++ flat (p :: ps) ++ junk).take A.length = A := by
        rw [List.append_assoc, List.take_left]
      simp only []
      rw [d1, d2, h3]
      simp only [ok_bind]
      have : A ++ (t ++ List.replicate tail.length 0 ++ (0 :: flat ps ++ junk)) =
          A ++ (t ++ List.replicate tail.length 0 ++ [0]) ++ flat ps ++ junk := by simp
      rw [this, r1]
      simp
    · rw [List.map_cons]
      have hs : strip p = t := by rw [e]; exact strip_of h1 h2
      rw [hs]
      refine .cons rfl ?_ ?_
      · have e1 : A ++ (t ++ List.replicate tail.length 0 ++ [0] ++ F) ++ junk =
            A ++ (t ++ ((List.replicate tail.length 0 ++ [0]) ++ (F ++ junk))) := by simp
        simp only []
        rw [e1, List.drop_left, hz, List.take_append, List.take_of_length_le (by omega)]
        simp
      · have : A ++ (t ++ List.replicate tail.length 0 ++ [0] ++ F) ++ junk = A ++ (t ++ List.replicate tail.length 0 ++ [0]) ++ F ++ junk := by simp
        rw [this]
        exact r2

/-- The lines of any text. -/
theorem lines_spec (s junk : List Byte) (x : Byte) : ∃ pcs buf qs, lines ⟨s ++ x :: junk, s.length⟩ = .ok (buf, qs) ∧ pcs ≠ [] ∧
    join [ch '\n'] pcs = s ∧ (∀ p ∈ pcs, ch '\n' ∉ p) ∧ Slices buf qs (pcs.map strip) := by
  obtain ⟨pcs, h0, h1, h2, h3, h4⟩ := splitcLoop_spec (ch '\n') x junk (fun _ => true) s.length s [] [] [] 0 0 0 rfl rfl (by simp) (by simp)
  simp only [List.nil_append] at h1 h4
  obtain ⟨F, qs, r1, r2⟩ := chompAll_spec junk pcs []
  simp only [List.nil_append, List.length_nil] at r1 r2
  refine ⟨pcs, _, qs, ?_, h0, h1, h2, r2⟩
  unfold lines splitc
  simp only []
  rw [h4]
  simp only [ok_bind]
  rw [Props.keep_everything, flat_join junk pcs h0, r1]

/-- Texts whose lines all end with `e`. -/
theorem lines_ends (e : List Byte) (he : e = [] ∨ e = [ch '\r']) (ss : List (List Byte)) {pcs : List (List Byte)} (h0 : pcs ≠ [])
    (h1 : join [ch '\n'] pcs = (ss.map (· ++ (e ++ [ch '\n']))).flatten) (h2 : ∀ p ∈ pcs, ch '\n' ∉ p) :
    pcs.map strip = ss ++ [[]] ↔ ∀ s ∈ ss, ch '\n' ∉ s ∧ s.getLast? ≠ some (ch '\r') := by
  have hnl : ch '\n' ∉ e := by rcases he with rfl | rfl <;> decide
  constructor
  · intro h s hs
    have : s ∈ pcs.map strip := by rw [h]; simp [hs]
    obtain ⟨p, hp, rfl⟩ := List.mem_map.1 this
    obtain ⟨tail, e1, e2⟩ := strip_prefix p
    refine ⟨fun hm => h2 p hp ?_, fun hm => (e2 _ hm).1 rfl⟩
    rw [e1]
    exact List.mem_append.2 (.inl hm)
  · intro h
    have hp : pcs = ss.map (· ++ e) ++ [[]] := by
      refine join_inj h0 (by simp) h2 ?_ ?_
      · intro p hp
        rcases List.mem_append.1 hp with hp | hp
        · obtain ⟨s, hs, rfl⟩ := List.mem_map.1 hp
          intro hm
          rcases List.mem_append.1 hm with hm | hm
          · exact (h s hs).1 hm
          · exact hnl hm
        · rw [List.mem_singleton] at hp; subst hp; simp
      · rw [h1, ← lines_join]
        simp [Function.comp_def]
    rw [hp, List.map_append, List.map_map]
    congr 1
    · refine (List.map_congr_left ?_).trans (List.map_id ss)
      intro s hs
      refine strip_of ?_ ?_
      · intro c hc
        rcases he with rfl | rfl
        · simp at hc
        · left; simpa using hc
      · intro c hc
        refine ⟨fun hcr => (h s hs).2 (by rw [hc, hcr]), fun hlf => (h s hs).1 ?_⟩
        rw [← hlf]
        exact List.mem_of_getLast? hc

end Ulz.Doslines

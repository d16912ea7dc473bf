import Verif.Spec.Optany
import Verif.Proofs.Optparser
namespace Ulz.Optparser
open Ulz.Stringptr (SP memEq)
open Ulz.Text (strcmpEq)
open Ulz.Optparser.Spec
open Ulz.Iniparser (memEq_spec)

theorem body_iff {n : Nat} {a b : List Byte} : Body n a b ↔ a.head? = some (ch '-') ∧ a.drop (off n a) = b := by
  have dash : (bytes! "-") = [ch '-'] := rfl
  have dash2 : (bytes! "--") = [ch '-', ch '-'] := rfl
  unfold Body
  rw [dash2, dash]
  constructor
  · rintro (⟨rfl, h⟩ | ⟨h, rfl⟩)
    · refine ⟨rfl, ?_⟩
      have : off n ([ch '-'] ++ b) = 1 := by
        unfold off
        refine if_neg ?_
        rintro ⟨h1, h2⟩
        refine h ⟨h1, ?_⟩
        rw [List.head?_eq_getElem?]
        simpa using h2
      rw [this]; simp
    · refine ⟨rfl, ?_⟩
      have : off n ([ch '-', ch '-'] ++ b) = 2 := if_pos ⟨h, rfl⟩
      rw [this]; simp
  · rintro ⟨h1, h2⟩
    match a, h1 with
    | c :: a, h1 =>
      simp at h1
      subst h1
      unfold off at h2
      split at h2
      · next h =>
        match a, h with
        | d :: a, h =>
          simp at h
          obtain ⟨h, rfl⟩ := h
          simp at h2
          exact Or.inr ⟨h, by simp [h2]⟩
      · next h =>
        simp at h2
        subst h2
        refine Or.inl ⟨by simp, ?_⟩
        rintro ⟨g1, g2⟩
        refine h ⟨g1, ?_⟩
        rw [List.head?_eq_getElem?] at g2
        simpa using g2

theorem body_unique {n : Nat} {a b b' : List Byte} (h : Body n a b) (h' : Body n a b') : b = b' :=
  ((body_iff.1 h).2).symm.trans (body_iff.1 h').2

/-- The length before an `=`, as op_get sees it. -/
theorem strleneq_cases (b junk : List Byte) (h0 : 0 ∉ b) :
    (ch '=' ∉ b ∧ strleneq (b ++ 0 :: junk) = .ok 0) ∨
    (∃ u v, b = u ++ ch '=' :: v ∧ ch '=' ∉ u ∧ strleneq (b ++ 0 :: junk) = .ok u.length) := by
  unfold strleneq
  rcases eq_cases b with h | ⟨u, v, rfl, hu⟩
  · exact Or.inl ⟨h, strleneqLoop_miss h h0 0⟩
  · refine Or.inr ⟨u, v, rfl, hu, ?_⟩
    rw [List.append_assoc, List.cons_append, strleneqLoop_hit hu (fun h => h0 (List.mem_append.2 (Or.inl h))), Nat.zero_add]

theorem rd_head {s junk : List Byte} (hs : s ≠ []) : rd (s ++ 0 :: junk) 0 = .ok (s.head hs) := by
  match s, hs with
  | c :: s, _ => rw [List.cons_append, rd_cons_zero]; rfl

theorem noDash {s : List Byte} {n i : Nat} {as : List (List Byte)} {t : List Byte} (hi : as[i]? = some s) (h : s.head? ≠ some (ch '-')) (r : Nat × Nat) :
    ¬GivesAny as n t i r := by
  rintro ⟨a, b, ha, hb, _⟩
  rw [hi] at ha
  cases ha
  exact h (body_iff.1 hb).1

theorem getRound_any {p : Op} {as : List (List Byte)} (h : Args p as) {t jn : List Byte} {n : Nat} (hn : 1 ≤ n) (hnt : n ≤ t.length) (h0 : 0 ∉ t)
    {i : Nat} {s : List Byte} (hi : as[i]? = some s) :
    (∃ r, getRound p ⟨t ++ 0 :: jn, n⟩ i = .ok (some r) ∧ GivesAny as n t i r) ∨
    (getRound p ⟨t ++ 0 :: jn, n⟩ i = .ok none ∧ ∀ r, ¬GivesAny as n t i r) := by
  obtain ⟨hs0, junk, hj⟩ := args_get h hi
  unfold getRound
  rw [hj, ok_bind]
  by_cases hs : s = []
  · subst hs
    rw [List.nil_append, rd_cons_zero, ok_bind, if_neg (by decide)]
    exact Or.inr ⟨rfl, noDash hi (by simp)⟩
  rw [rd_head hs, ok_bind]
  by_cases hc : s.head hs = ch '-'
  · rw [if_pos hc, skipDash_spec hs, ok_bind]
    simp only
    have hhead : s.head? = some (ch '-') := by rw [List.head?_eq_some_head hs, hc]
    have hol := off_le (n := n) hs
    rw [List.drop_append_of_le_length hol.1]
    have hB : Body n s (s.drop (off n s)) := body_iff.2 ⟨hhead, rfl⟩
    have hb0 : 0 ∉ s.drop (off n s) := fun h => hs0 (List.mem_of_mem_drop h)
    have hbl : (s.drop (off n s)).length = s.length - off n s := List.length_drop
    generalize ho : off n s = o at *
    generalize hbd : s.drop o = b at *
    have give : ∀ r, GivesAny as n t i r ↔
        ((∃ v, b = t.take n ++ ch '=' :: v ∧ ch '=' ∉ t.take n ∧ r = (i, s.length - v.length)) ∨
          (b = t ∧ (ch '=' ∉ t ∨ t.head? = some (ch '=')) ∧ i + 1 < as.length ∧ r = (i + 1, 0))) := by
      intro r
      constructor
      · rintro ⟨a, b', ha, hb', hh⟩
        rw [hi] at ha
        cases ha
        cases body_unique hB hb'
        exact hh
      · intro hh
        exact ⟨s, b, hi, hB, hh⟩
    -- the branch for an argument without a usable equals sign
    have second : ∀ (hv : ∀ v, b = t.take n ++ ch '=' :: v → ch '=' ∈ t.take n) (hz : b = t → ch '=' ∉ t ∨ t.head? = some (ch '=')),
        (∃ r, (strcmpEq (t ++ 0 :: jn) (b ++ 0 :: junk) >>= fun e => if e = true then
            if i + 1 < p.argc then (arg p (i + 1) >>= fun _ => pure (some (i + 1, 0))) else pure none else pure none) = .ok (some r) ∧ GivesAny as n t i r) ∨
        ((strcmpEq (t ++ 0 :: jn) (b ++ 0 :: junk) >>= fun e => if e = true then
            if i + 1 < p.argc then (arg p (i + 1) >>= fun _ => pure (some (i + 1, 0))) else pure none else pure none) = .ok none ∧
          ∀ r, ¬GivesAny as n t i r) := by
      intro hv hz
      rw [Props.strcmpEq_correct _ _ _ _ h0 hb0, ok_bind]
      by_cases ht : t = b
      · rw [if_pos (decide_eq_true ht)]
        by_cases hi1 : i + 1 < p.argc
        · rw [if_pos hi1]
          have hi2 : i + 1 < as.length := by rw [← h.1]; exact hi1
          obtain ⟨_, j2, hj2⟩ := args_get h (List.getElem?_eq_getElem hi2)
          rw [hj2, ok_bind]
          exact Or.inl ⟨_, rfl, (give _).2 (Or.inr ⟨ht.symm, hz ht.symm, hi2, rfl⟩)⟩
        · rw [if_neg hi1]
          refine Or.inr ⟨rfl, fun r hr => ?_⟩
          rcases (give r).1 hr with ⟨v, e1, e2, _⟩ | ⟨_, _, e3, _⟩
          · exact e2 (hv v e1)
          · rw [← h.1] at e3; exact hi1 e3
      · rw [if_neg (by simpa using ht)]
        refine Or.inr ⟨rfl, fun r hr => ?_⟩
        rcases (give r).1 hr with ⟨v, e1, e2, _⟩ | ⟨e1, _⟩
        · exact e2 (hv v e1)
        · exact ht e1.symm
    rcases strleneq_cases b junk hb0 with ⟨hb, e⟩ | ⟨u, v, hbe, hu, e⟩
    · rw [e, ok_bind, if_neg (by omega), pure_eq_ok, ok_bind]
      simp only [Bool.false_eq_true, if_false, if_true]
      exact second (fun v hv => absurd (by rw [hv]; simp) hb) (fun hbt => Or.inl (hbt ▸ hb))
    · rw [e, ok_bind]
      by_cases hl : u.length = n
      · rw [if_pos hl, memEq_spec (by simp; omega) (by rw [hbe]; simp), ok_bind]
        simp only [List.drop_zero]
        rw [hl, List.take_append_of_le_length hnt, List.take_append_of_le_length (by rw [hbe]; simp; omega)]
        have htu : b.take n = u := by rw [hbe, ← hl, List.take_left]
        rw [htu]
        by_cases hun : t.take n = u
        · rw [if_pos (decide_eq_true hun)]
          refine Or.inl ⟨_, rfl, (give _).2 (Or.inl ⟨v, by rw [hun]; exact hbe, by rw [hun]; exact hu, ?_⟩)⟩
          rw [hbe] at hbl
          simp at hbl
          congr 1; omega
        · rw [if_neg (by simpa using hun), if_neg (by omega), pure_eq_ok, ok_bind]
          refine Or.inr ⟨rfl, fun r hr => ?_⟩
          rcases (give r).1 hr with ⟨v', e1, e2, _⟩ | ⟨e1, e2, _⟩
          · rw [hbe] at e1
            exact hun (split_unique e1 hu e2).1.symm
          · rcases e2 with e2 | e2
            · exact e2 (by rw [← e1, hbe]; simp)
            · rw [← e1, hbe] at e2
              match u, hu, hl with
              | [], _, hl => simp at hl; omega
              | x :: u, hu, _ => simp at e2; exact hu (by simp [e2])
      · rw [if_neg hl, pure_eq_ok, ok_bind]
        simp only [Bool.false_eq_true, if_false]
        have hv : ∀ v', b = t.take n ++ ch '=' :: v' → ch '=' ∈ t.take n := by
          intro v' e1
          apply Classical.byContradiction
          intro e2
          rw [hbe] at e1
          have := (split_unique e1 hu e2).1
          exact hl (by rw [this, List.length_take]; omega)
        by_cases hz : u.length = 0
        · rw [if_pos hz]
          have hu' := List.eq_nil_of_length_eq_zero hz
          subst hu'
          exact second hv (fun hbt => Or.inr (by rw [← hbt, hbe]; rfl))
        · rw [if_neg hz, pure_eq_ok, ok_bind]
          refine Or.inr ⟨rfl, fun r hr => ?_⟩
          rcases (give r).1 hr with ⟨v', e1, e2, _⟩ | ⟨e1, e2, _⟩
          · exact e2 (hv v' e1)
          · rcases e2 with e2 | e2
            · exact e2 (by rw [← e1, hbe]; simp)
            · rw [← e1, hbe] at e2
              match u, hu, hz with
              | [], _, hz => exact hz rfl
              | x :: u, hu, _ => simp at e2; exact hu (by simp [e2])
  · rw [if_neg hc]
    refine Or.inr ⟨rfl, noDash hi ?_⟩
    rw [List.head?_eq_some_head hs]
    simpa using hc

theorem getRound_zero {p : Op} {as : List (List Byte)} (h : Args p as) {t jn : List Byte} (h0 : 0 ∉ t)
    {i : Nat} {s : List Byte} (hi : as[i]? = some s) :
    (∃ r, getRound p ⟨t ++ 0 :: jn, 0⟩ i = .ok (some r) ∧ GivesZero as i r) ∨
    (getRound p ⟨t ++ 0 :: jn, 0⟩ i = .ok none ∧ ∀ r, ¬GivesZero as i r) := by
  obtain ⟨hs0, junk, hj⟩ := args_get h hi
  unfold getRound
  rw [hj, ok_bind]
  have dash : (bytes! "-") = [ch '-'] := rfl
  unfold GivesZero
  rw [hi, dash]
  match s, hs0 with
  | [], _ =>
    rw [List.nil_append, rd_cons_zero, ok_bind, if_neg (by decide)]
    exact Or.inr ⟨rfl, by rintro r ⟨b, hb, _⟩; simp at hb⟩
  | c :: b, hs0 =>
    rw [List.cons_append, rd_cons_zero, ok_bind]
    by_cases hc : c = ch '-'
    · subst hc
      rw [if_pos rfl, ← List.cons_append, skipDash_spec (by simp), ok_bind]
      simp only
      have ho : off 0 (ch '-' :: b) = 1 := if_neg (by omega)
      rw [ho, List.cons_append, List.drop_succ_cons, List.drop_zero]
      have hb0 : 0 ∉ b := fun hh => hs0 (List.mem_cons_of_mem _ hh)
      rcases strleneq_cases b junk hb0 with ⟨hb, e⟩ | ⟨u, v, hbe, hu, e⟩
      · rw [e, ok_bind, if_pos rfl, memEq_spec (by simp) (by simp), ok_bind]
        exact Or.inl ⟨_, rfl, b, rfl, Or.inl hb, rfl⟩
      · rw [e, ok_bind]
        by_cases hz : u.length = 0
        · rw [if_pos hz, hz, memEq_spec (by simp) (by simp), ok_bind]
          have hu' := List.eq_nil_of_length_eq_zero hz
          subst hu'
          exact Or.inl ⟨_, rfl, b, rfl, Or.inr (by rw [hbe]; rfl), rfl⟩
        · rw [if_neg hz, pure_eq_ok, ok_bind]
          simp only [Bool.false_eq_true, if_false]
          rw [if_neg hz, pure_eq_ok, ok_bind]
          refine Or.inr ⟨rfl, ?_⟩
          rintro r ⟨b', hb', hh, _⟩
          simp at hb'
          subst hb'
          rcases hh with hh | hh
          · exact hh (by rw [hbe]; simp)
          · rw [hbe] at hh
            match u, hu, hz with
            | [], _, hz => exact hz rfl
            | x :: u, hu, _ => simp at hh; exact hu (by simp [hh])
    · rw [if_neg hc]
      refine Or.inr ⟨rfl, ?_⟩
      rintro r ⟨b', hb', _⟩
      simp at hb'
      exact hc hb'.1

/-- The loop over the arguments, for any description of what a round gives. -/
theorem getLoop_first {p : Op} {as : List (List Byte)} (h : Args p as) {a : SP} {G : Nat → Nat × Nat → Prop}
    (hG : ∀ i r, G i r → i < as.length)
    (hr : ∀ i s, as[i]? = some s → (∃ r, getRound p a i = .ok (some r) ∧ G i r) ∨ (getRound p a i = .ok none ∧ ∀ r, ¬G i r)) : ∀ fuel i, 0 < fuel →
    p.argc < fuel + i →
    (∃ k r, getLoop p a fuel i = .ok (some r) ∧ i ≤ k ∧ G k r ∧ ∀ j, i ≤ j → j < k → ∀ r, ¬G j r) ∨
    (getLoop p a fuel i = .ok none ∧ ∀ j, i ≤ j → ∀ r, ¬G j r) := by
  intro fuel
  induction fuel with
  | zero => intro i h _; omega
  | succ fuel ih =>
    intro i _ h2
    rw [getLoop]
    by_cases hi : i < p.argc
    · rw [if_pos hi]
      rcases hr i _ (List.getElem?_eq_getElem (h.1 ▸ hi)) with ⟨r, e1, e2⟩ | ⟨e1, e2⟩
      · rw [e1, ok_bind]
        exact Or.inl ⟨i, r, rfl, Nat.le_refl _, e2, by intro j _ _; omega⟩
      · rw [e1, ok_bind]
        rcases ih (i + 1) (by omega) (by omega) with ⟨k, r, a, b, c, d⟩ | ⟨a, b⟩
        · refine Or.inl ⟨k, r, a, by omega, c, ?_⟩
          intro j hj1 hj2
          by_cases hj : j = i
          · subst hj; exact e2
          · exact d j (by omega) hj2
        · refine Or.inr ⟨a, ?_⟩
          intro j hj1
          by_cases hj : j = i
          · subst hj; exact e2
          · exact b j (by omega)
    · rw [if_neg hi]
      refine Or.inr ⟨rfl, fun j hj r hr => ?_⟩
      have := hG j r hr
      rw [← h.1] at this
      omega

end Ulz.Optparser

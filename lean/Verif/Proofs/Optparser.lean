import Verif.Spec.Optparser
import Verif.Proofs.Iniparser
import Verif.Proofs.Hex
import Verif.Props.Text
/-! Lemmas about the option parser. -/
namespace Ulz.Optparser
open Ulz.Stringptr (SP memEq)
open Ulz.Text (strcmpEq)
open Ulz.Optparser.Spec
open Ulz.Iniparser (memEq_spec)

/-- The offset of the name. -/
def off (n : Nat) (s : List Byte) : Nat := if 1 < n ∧ s[1]? = some (ch '-') then 2 else 1

theorem skipDash_spec {s junk : List Byte} {n : Nat} (hs : s ≠ []) : skipDash (s ++ 0 :: junk) n = .ok (off n s) := by
  unfold skipDash off
  by_cases hn : n > 1
  · rw [if_pos hn]
    match s, hs with
    | [c], _ =>
      rw [List.singleton_append, show (1 : Nat) = 0 + 1 from rfl, rd_cons_succ, rd_cons_zero, ok_bind]
      simp only [List.getElem?_cons_succ, List.getElem?_nil]
      rw [if_neg (by decide), if_neg (by simp)]; rfl
    | c :: d :: s, _ =>
      rw [List.cons_append, List.cons_append, show (1 : Nat) = 0 + 1 from rfl, rd_cons_succ, rd_cons_zero, ok_bind]
      simp only [List.getElem?_cons_succ, List.getElem?_cons_zero, Option.some.injEq]
      by_cases hd : d = ch '-'
      · rw [if_pos hd, if_pos ⟨hn, hd⟩]; rfl
      · rw [if_neg hd, if_neg (fun h => hd h.2)]; rfl
  · rw [if_neg hn, if_neg (fun h => hn h.1)]; rfl

theorem off_le {n : Nat} {s : List Byte} (hs : s ≠ []) : off n s ≤ s.length ∧ 1 ≤ off n s := by
  unfold off
  match s, hs with
  | [c], _ => simp
  | c :: d :: s, _ => split <;> simp

theorem opt_iff {name s rest : List Byte} (hd : name.head? ≠ some (ch '-')) :
    Opt name s rest ↔ s.head? = some (ch '-') ∧ s.drop (off name.length s) = name ++ rest := by
  have dash : (bytes! "-") = [ch '-'] := rfl
  have dash2 : (bytes! "--") = [ch '-', ch '-'] := rfl
  unfold Opt
  rw [dash2, dash]
  constructor
  · rintro (rfl | ⟨h, rfl⟩)
    · refine ⟨rfl, ?_⟩
      have : off name.length ([ch '-'] ++ name ++ rest) = 1 := by
        unfold off
        refine if_neg ?_
        rintro ⟨h1, h2⟩
        match name, h1, hd with
        | c :: name, _, hd => simp at h2 hd; exact hd h2
      rw [this]; simp
    · refine ⟨rfl, ?_⟩
      have : off name.length ([ch '-', ch '-'] ++ name ++ rest) = 2 := if_pos ⟨h, rfl⟩
      rw [this]; simp
  · rintro ⟨h1, h2⟩
    match s, h1 with
    | c :: s, h1 =>
      simp at h1
      subst h1
      unfold off at h2
      split at h2
      · next h =>
        match s, h with
        | d :: s, h =>
          simp at h
          obtain ⟨h, rfl⟩ := h
          simp at h2
          exact Or.inr ⟨h, by simp [h2]⟩
      · simp at h2
        exact Or.inl (by simp [h2])

theorem strleneqLoop_hit {u v : List Byte} (hu : ch '=' ∉ u) (h0 : 0 ∉ u) : ∀ l,
    strleneqLoop (u ++ ch '=' :: v) l = .ok (l + u.length) := by
  induction u with
  | nil => intro l; rw [List.nil_append, strleneqLoop, if_neg (by decide), if_neg (by decide)]; rfl
  | cons c u ih =>
    intro l
    rw [List.cons_append, strleneqLoop, if_pos ⟨fun h => h0 (by simp [h]), fun h => hu (by simp [h])⟩,
      ih (fun h => hu (by simp [h])) (fun h => h0 (List.mem_cons_of_mem _ h))]
    simp; omega

theorem strleneqLoop_miss {t junk : List Byte} (ht : ch '=' ∉ t) (h0 : 0 ∉ t) : ∀ l,
    strleneqLoop (t ++ 0 :: junk) l = .ok 0 := by
  induction t with
  | nil => intro l; rw [List.nil_append, strleneqLoop, if_neg (by decide), if_pos rfl]; rfl
  | cons c u ih =>
    intro l
    rw [List.cons_append, strleneqLoop, if_pos ⟨fun h => h0 (by simp [h]), fun h => ht (by simp [h])⟩,
      ih (fun h => ht (by simp [h])) (fun h => h0 (List.mem_cons_of_mem _ h))]

theorem eq_cases (t : List Byte) : ch '=' ∉ t ∨ ∃ u v, t = u ++ ch '=' :: v ∧ ch '=' ∉ u := by
  by_cases h : ch '=' ∈ t
  · exact Or.inr (List.eq_append_cons_of_mem h)
  · exact Or.inl h

theorem split_unique {u v u' v' : List Byte} {c : Byte} (h : u ++ c :: v = u' ++ c :: v') (hu : c ∉ u) (hu' : c ∉ u') :
    u = u' ∧ v = v' := by
  induction u generalizing u' with
  | nil =>
    match u', h, hu' with
    | [], h, _ => simpa using h
    | d :: u', h, hu' => simp at h hu'; exact absurd h.1 hu'.1
  | cons d u ih =>
    match u', h, hu' with
    | [], h, _ => simp at h hu; exact absurd h.1.symm hu.1
    | e :: u', h, hu' =>
      simp only [List.cons_append, List.cons.injEq] at h
      obtain ⟨h1, h2⟩ := ih h.2 (fun hh => hu (by simp [hh])) (fun hh => hu' (by simp [hh]))
      exact ⟨by rw [h.1, h1], h2⟩

theorem args_get {p : Op} {as : List (List Byte)} (h : Args p as) {i : Nat} {a : List Byte} (hi : as[i]? = some a) :
    0 ∉ a ∧ ∃ junk, arg p i = .ok (a ++ 0 :: junk) := by
  obtain ⟨h0, j, hj⟩ := h.2 i a hi
  exact ⟨h0, j, by unfold arg; rw [hj]⟩

theorem getRound_spec {p : Op} {as : List (List Byte)} (h : Args p as) {name jn : List Byte} (hne : name ≠ []) (h0 : 0 ∉ name)
    (heq : ch '=' ∉ name) (hd : name.head? ≠ some (ch '-')) {i : Nat} {s : List Byte} (hi : as[i]? = some s) :
    (∃ r, getRound p ⟨name ++ 0 :: jn, name.length⟩ i = .ok (some r) ∧ Gives as name i r) ∨
    (getRound p ⟨name ++ 0 :: jn, name.length⟩ i = .ok none ∧ ∀ r, ¬Gives as name i r) := by
  obtain ⟨hs0, junk, hj⟩ := args_get h hi
  have give : ∀ r, Gives as name i r ↔ ((∃ v, Opt name s (ch '=' :: v) ∧ r = (i, s.length - v.length)) ∨
      (Opt name s [] ∧ i + 1 < as.length ∧ r = (i + 1, 0))) := by
    intro r
    unfold Gives
    rw [hi]
    constructor
    · rintro ⟨a, ha, hh⟩
      injection ha with ha
      subst ha
      exact hh
    · intro hh; exact ⟨s, rfl, hh⟩
  unfold getRound
  rw [hj, ok_bind]
  match s, hi, hs0, give with
  | [], hi, _, give =>
    rw [List.nil_append, rd_cons_zero, ok_bind, if_neg (by decide)]
    refine Or.inr ⟨rfl, fun r hr => ?_⟩
    rcases (give r).1 hr with ⟨v, hv, _⟩ | ⟨hv, _⟩
    · have := ((opt_iff hd).1 hv).1; simp at this
    · have := ((opt_iff hd).1 hv).1; simp at this
  | c :: s, hi, hs0, give =>
    rw [List.cons_append, rd_cons_zero, ok_bind]
    by_cases hc : c = ch '-'
    · rw [if_pos hc, ← List.cons_append, skipDash_spec (by simp), ok_bind]
      subst hc
      generalize ha : ch '-' :: s = a at *
      have hane : a ≠ [] := by rw [← ha]; simp
      have hhead : a.head? = some (ch '-') := by rw [← ha]; rfl
      simp only
      generalize ho : off name.length a = o at *
      have hol : o ≤ a.length ∧ 1 ≤ o := ho ▸ off_le hane
      rw [List.drop_append_of_le_length hol.1]
      have hopt : ∀ rest, Opt name a rest ↔ a.drop o = name ++ rest := by
        intro rest
        rw [opt_iff hd, ho]
        exact ⟨fun h => h.2, fun h => ⟨hhead, h⟩⟩
      have ht0 : 0 ∉ a.drop o := fun h => hs0 (List.mem_of_mem_drop h)
      have htl : (a.drop o).length = a.length - o := List.length_drop
      generalize hte : a.drop o = t at *
      rcases eq_cases t with ht | ⟨u, v, rfl, hu⟩
      · unfold strleneq
        rw [strleneqLoop_miss ht ht0, ok_bind, if_neg (fun h => hne (List.eq_nil_of_length_eq_zero h.symm)), pure_eq_ok, ok_bind, if_pos rfl,
          Props.strcmpEq_correct _ _ _ _ h0 ht0, ok_bind]
        simp only [Bool.false_eq_true, if_false]
        have novalue : ∀ v, ¬Opt name a (ch '=' :: v) := by
          intro v hv
          rw [(hopt _).1 hv] at ht
          exact ht (by simp)
        by_cases hnt : name = t
        · rw [if_pos (decide_eq_true hnt)]
          have hO : Opt name a [] := (hopt _).2 (by rw [hnt, List.append_nil])
          by_cases hi1 : i + 1 < p.argc
          · rw [if_pos hi1]
            have hi2 : i + 1 < as.length := by rw [← h.1]; exact hi1
            obtain ⟨_, j2, hj2⟩ := args_get h (List.getElem?_eq_getElem hi2)
            rw [hj2, ok_bind]
            exact Or.inl ⟨_, rfl, (give _).2 (Or.inr ⟨hO, hi2, rfl⟩)⟩
          · rw [if_neg hi1]
            refine Or.inr ⟨rfl, fun r hr => ?_⟩
            rcases (give r).1 hr with ⟨v, hv, _⟩ | ⟨_, h2, _⟩
            · exact novalue v hv
            · rw [← h.1] at h2; exact hi1 h2
        · rw [decide_eq_false hnt]
          refine Or.inr ⟨rfl, fun r hr => ?_⟩
          rcases (give r).1 hr with ⟨v, hv, _⟩ | ⟨hv, _⟩
          · exact novalue v hv
          · rw [hopt, List.append_nil] at hv
            exact hnt hv.symm
      · unfold strleneq
        have hu0 : 0 ∉ u := fun h => ht0 (List.mem_append.2 (Or.inl h))
        rw [List.append_assoc, List.cons_append, strleneqLoop_hit hu hu0, ok_bind, Nat.zero_add]
        have noflag : ¬Opt name a [] := by
          intro hv
          rw [hopt, List.append_nil] at hv
          exact heq (by rw [← hv]; simp)
        have same : ∀ v', Opt name a (ch '=' :: v') → u = name ∧ v = v' := fun v' hv => split_unique ((hopt _).1 hv) hu heq
        have miss : u ≠ name → ∀ r, ¬Gives as name i r := by
          intro hne r hr
          rcases (give r).1 hr with ⟨v, hv, _⟩ | ⟨hv, _⟩
          · exact hne (same v hv).1
          · exact noflag hv
        by_cases hl : u.length = name.length
        · rw [if_pos hl, memEq_spec (by simp; omega) (by simp), ok_bind]
          simp only [List.drop_zero, List.take_left]
          rw [hl, List.take_left]
          by_cases hun : name = u
          · rw [if_pos (decide_eq_true hun)]
            refine Or.inl ⟨_, rfl, (give _).2 (Or.inl ⟨v, (hopt _).2 (by rw [hun]), ?_⟩)⟩
            simp at htl
            rw [hl] at htl
            congr 1; omega
          · rw [decide_eq_false hun]
            simp only [Bool.false_eq_true, if_false]
            rw [if_neg (by simpa using hne), pure_eq_ok, ok_bind]
            exact Or.inr ⟨rfl, miss (Ne.symm hun)⟩
        · rw [if_neg hl, pure_eq_ok, ok_bind]
          simp only [Bool.false_eq_true, if_false]
          have hmiss := miss (fun h => hl (by rw [h]))
          by_cases hz : u.length = 0
          · rw [if_pos hz]
            obtain rfl := List.eq_nil_of_length_eq_zero hz
            rw [List.nil_append, ← List.cons_append, Props.strcmpEq_correct _ _ _ _ h0 (by simpa using ht0), ok_bind,
              decide_eq_false (fun h => heq (by rw [h]; simp))]
            exact Or.inr ⟨rfl, hmiss⟩
          · rw [if_neg hz, pure_eq_ok, ok_bind]
            exact Or.inr ⟨rfl, hmiss⟩
    · rw [if_neg hc]
      refine Or.inr ⟨rfl, fun r hr => ?_⟩
      rcases (give r).1 hr with ⟨v, hv, _⟩ | ⟨hv, _⟩
      · have := ((opt_iff hd).1 hv).1; simp at this; exact hc this
      · have := ((opt_iff hd).1 hv).1; simp at this; exact hc this

theorem getLoop_spec {p : Op} {as : List (List Byte)} (h : Args p as) {name jn : List Byte} (hne : name ≠ []) (h0 : 0 ∉ name)
    (heq : ch '=' ∉ name) (hd : name.head? ≠ some (ch '-')) : ∀ fuel i, 0 < fuel → p.argc < fuel + i →
    (∃ k r, getLoop p ⟨name ++ 0 :: jn, name.length⟩ fuel i = .ok (some r) ∧ i ≤ k ∧ Gives as name k r ∧
      ∀ j, i ≤ j → j < k → ∀ r, ¬Gives as name j r) ∨
    (getLoop p ⟨name ++ 0 :: jn, name.length⟩ fuel i = .ok none ∧ ∀ j, i ≤ j → ∀ r, ¬Gives as name j r) := by
  intro fuel
  induction fuel with
  | zero => intro i h _; omega
  | succ fuel ih =>
    intro i _ h2
    rw [getLoop]
    by_cases hi : i < p.argc
    · rw [if_pos hi]
      rcases getRound_spec (jn := jn) h hne h0 heq hd (List.getElem?_eq_getElem (h.1 ▸ hi)) with ⟨r, e1, e2⟩ | ⟨e1, e2⟩
      · rw [e1, ok_bind]
        exact Or.inl ⟨i, r, rfl, Nat.le_refl _, e2, by intro j _ _; omega⟩
      · rw [e1, ok_bind]
        rcases ih (i + 1) (by omega) (by omega) with ⟨k, r, a, b, c, d⟩ | ⟨a, b⟩
        · refine Or.inl ⟨k, r, a, by omega, c, ?_⟩
          intro j hj1 hj2
          by_cases hj : j = i
          · subst hj; exact e2
          · exact d j (by omega) hj2
        · refine Or.inr ⟨a, ?_⟩
          intro j hj1
          by_cases hj : j = i
          · subst hj; exact e2
          · exact b j (by omega)
    · rw [if_neg hi]
      refine Or.inr ⟨rfl, fun j hj r hr => ?_⟩
      obtain ⟨a, ha, _⟩ := hr
      rw [List.getElem?_eq_none (by rw [← h.1]; omega)] at ha
      simp at ha

/-! ### Flags -/

/-- What op_hasflag compares. -/
def Flag (name a : List Byte) : Prop := a.head? = some (ch '-') ∧ a.drop (off name.length a) = name

theorem flagRound_spec {p : Op} {as : List (List Byte)} (h : Args p as) {f : SP} {name : List Byte}
    (hf : Ulz.Stringptr.Spec.Holds f name) {i : Nat} {s : List Byte} (hi : as[i]? = some s) :
    ∃ b, flagRound p f i = .ok b ∧ (b = true ↔ Flag name s) := by
  obtain ⟨k, rfl⟩ := Ulz.Stringptr.holds_iff.1 hf
  obtain ⟨hs0, junk, hj⟩ := args_get h hi
  unfold flagRound Flag
  rw [hj, ok_bind]
  match s, hi, hs0 with
  | [], hi, _ =>
    rw [List.nil_append, rd_cons_zero, ok_bind, if_neg (by decide)]
    exact ⟨false, rfl, by simp⟩
  | c :: s, hi, hs0 =>
    rw [List.cons_append, rd_cons_zero, ok_bind]
    by_cases hc : c = ch '-'
    · rw [if_pos hc, ← List.cons_append, skipDash_spec (by simp), ok_bind]
      simp only
      have hol := off_le (n := name.length) (s := c :: s) (by simp)
      rw [List.drop_append_of_le_length hol.1]
      have ht0 : 0 ∉ (c :: s).drop (off name.length (c :: s)) := fun h => hs0 (List.mem_of_mem_drop h)
      generalize (c :: s).drop (off name.length (c :: s)) = t at *
      rw [Hex.strlen_cstr _ _ ht0, ok_bind]
      by_cases hl : t.length = name.length
      · rw [if_pos hl, memEq_spec (by simp; omega) (by simp)]
        refine ⟨_, rfl, ?_⟩
        rw [decide_eq_true_eq]
        simp only [List.drop_zero, List.take_left, List.head?_cons, hc, true_and]
        rw [hl, List.take_left]
        exact eq_comm
      · rw [if_neg hl]
        refine ⟨false, rfl, by simp, fun hh => absurd (by rw [hh.2]) hl⟩
    · rw [if_neg hc]
      exact ⟨false, rfl, by simp [hc]⟩

theorem flagLoop_spec {p : Op} {as : List (List Byte)} (h : Args p as) {f : SP} {name : List Byte}
    (hf : Ulz.Stringptr.Spec.Holds f name) : ∀ fuel i, 0 < fuel → p.argc < fuel + i →
    ∃ r, flagLoop p f fuel i = .ok r ∧ (r = 1 ∧ (∃ j a, i ≤ j ∧ as[j]? = some a ∧ Flag name a) ∨
      r = 0 ∧ ¬∃ j a, i ≤ j ∧ as[j]? = some a ∧ Flag name a) := by
  intro fuel
  induction fuel with
  | zero => intro i h _; omega
  | succ fuel ih =>
    intro i _ h2
    rw [flagLoop]
    by_cases hi : i < p.argc
    · rw [if_pos hi]
      have hg := List.getElem?_eq_getElem (h.1 ▸ hi)
      obtain ⟨b, e1, e2⟩ := flagRound_spec h hf hg
      rw [e1, ok_bind]
      cases b with
      | true =>
        exact ⟨1, rfl, Or.inl ⟨rfl, i, _, Nat.le_refl _, hg, e2.1 rfl⟩⟩
      | false =>
        obtain ⟨r, a1, a2⟩ := ih (i + 1) (by omega) (by omega)
        refine ⟨r, a1, ?_⟩
        rcases a2 with ⟨a3, j, a, b1, b2, b3⟩ | ⟨a3, a4⟩
        · exact Or.inl ⟨a3, j, a, by omega, b2, b3⟩
        · refine Or.inr ⟨a3, ?_⟩
          rintro ⟨j, a, b1, b2, b3⟩
          by_cases hj : j = i
          · subst hj
            rw [hg] at b2
            injection b2 with b2
            subst b2
            exact absurd (e2.2 b3) (by simp)
          · exact a4 ⟨j, a, by omega, b2, b3⟩
    · rw [if_neg hi]
      refine ⟨0, rfl, Or.inr ⟨rfl, ?_⟩⟩
      rintro ⟨j, a, b1, b2, _⟩
      rw [List.getElem?_eq_none (by rw [← h.1]; omega)] at b2
      simp at b2

end Ulz.Optparser

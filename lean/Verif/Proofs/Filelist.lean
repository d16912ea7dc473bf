import Verif.Spec.Filelist
import Verif.Props.Stringptr
/-! Lemmas about file lists. -/
namespace Ulz.Filelist
open Stringptr Stringptr.Spec Spec

theorem has_bit (flags : BitVec 32) (i : Nat) : has flags (BitVec.twoPow 32 i) = (decide (i < 32) && flags.getLsbD i) := by
  unfold has
  rw [BitVec.and_twoPow]
  by_cases h : flags.getLsbD i
  · have hi : i < 32 := BitVec.lt_of_getLsbD h
    have : BitVec.twoPow 32 i ≠ 0 := by
      intro e
      have := congrArg (fun x => BitVec.getLsbD x i) e
      simp [hi] at this
    rw [if_pos h, h]
    simp only [hi, decide_true, Bool.and_self]
    exact decide_eq_true this
  · rw [if_neg h]
    simp [h]

theorem has_dot (flags : BitVec 32) : has flags INCLUDE_DOT = flags.getLsbD 0 := has_bit flags 0
theorem has_dotdot (flags : BitVec 32) : has flags INCLUDE_DOT_DOT = flags.getLsbD 1 := has_bit flags 1
theorem has_exclude (flags : BitVec 32) : has flags EXCLUDE_PATH = flags.getLsbD 2 := has_bit flags 2
theorem has_hidden (flags : BitVec 32) : has flags INCLUDE_HIDDEN = flags.getLsbD 3 := has_bit flags 3

/-! ### Escaping -/

theorem escape_cons (c : Byte) (d : List Byte) : escape (c :: d) = (if Special c then [ch '\\', c] else [c]) ++ escape d := by
  unfold escape
  rw [List.flatMap_cons]

theorem escape_length_le (d : List Byte) : d.length ≤ (escape d).length := by
  induction d with
  | nil => exact Nat.le_refl _
  | cons c d ih =>
    rw [escape_cons]
    split <;> simp <;> omega

/-- The loop, with `t` written so far. -/
theorem escLoop_spec : ∀ (d junk : List Byte) (fuel : Nat) (t out : List Byte), d.length < fuel → out.length = 4096 → t.length < 4096 →
    (t.length + (escape d).length < 4094 →
      escLoop fuel (d ++ junk) d.length (put out 0 t) t.length = .ok (0, put out 0 (t ++ escape d), t.length + (escape d).length)) ∧
    (4094 ≤ t.length + (escape d).length → ∃ k out' n, escLoop fuel (d ++ junk) d.length (put out 0 t) t.length = .ok (k, out', n) ∧ (k ≠ 0 ∨ 4094 ≤ n)) := by
  intro d
  induction d with
  | nil =>
    intro junk fuel t out hf ho ht
    obtain ⟨fuel, rfl⟩ : ∃ n, fuel = n + 1 := ⟨fuel - 1, by omega⟩
    unfold escLoop
    rw [if_neg (by simp)]
    constructor
    · intro _
      simp [escape]
    · intro h
      exact ⟨_, _, _, rfl, Or.inr (by simpa [escape] using h)⟩
  | cons c d ih =>
    intro junk fuel t out hf ho ht
    obtain ⟨fuel, rfl⟩ : ∃ n, fuel = n + 1 := ⟨fuel - 1, by omega⟩
    simp only [List.length_cons] at hf
    unfold escLoop
    by_cases hc : t.length + 2 < 4096
    · rw [if_pos ⟨by simp, hc⟩]
      simp only [List.cons_append, rd_cons_zero, ok_bind, List.length_cons, Nat.add_sub_cancel]
      have hlen : ∀ x : List Byte, x.length ≤ 4096 → (put out 0 x).length = 4096 := by
        intro x hx
        rw [put_length (by omega), ho]
      have hwr : ∀ (x : List Byte) (c : Byte), x.length < 4096 → wr (put out 0 x) x.length c = .ok (put out 0 (x ++ [c])) := by
        intro x c hx
        exact wr_put0 rfl (by omega)
      rw [escape_cons]
      by_cases hs : Special c
      · rw [if_pos (show c = ch '[' ∨ c = ch '?' ∨ c = ch '*' from hs), if_pos hs]
        rw [hwr t _ (by omega)]
        simp only [ok_bind]
        have := hwr (t ++ [ch '\\']) c (by simp; omega)
        rw [show (t ++ [ch '\\']).length = t.length + 1 by simp] at this
        rw [this]
        simp only [ok_bind]
        obtain ⟨h1, h2⟩ := ih junk fuel (t ++ [ch '\\'] ++ [c]) out (by omega) ho (by simp; omega)
        rw [show (t ++ [ch '\\'] ++ [c]).length = t.length + 2 by simp] at h1 h2
        rw [show List.drop 1 (c :: (d ++ junk)) = d ++ junk from rfl]
        constructor
        · intro h
          simp only [List.length_append, List.length_cons, List.length_nil] at h
          rw [h1 (by omega)]
          simp; omega
        · intro h
          simp only [List.length_append, List.length_cons, List.length_nil] at h
          exact h2 (by omega)
      · rw [if_neg (show ¬ (c = ch '[' ∨ c = ch '?' ∨ c = ch '*') from hs), if_neg hs]
        rw [hwr t _ (by omega)]
        simp only [ok_bind]
        obtain ⟨h1, h2⟩ := ih junk fuel (t ++ [c]) out (by omega) ho (by simp; omega)
        rw [show (t ++ [c]).length = t.length + 1 by simp] at h1 h2
        rw [show List.drop 1 (c :: (d ++ junk)) = d ++ junk from rfl]
        constructor
        · intro h
          simp only [List.length_append, List.length_cons, List.length_nil] at h
          rw [h1 (by omega)]
          simp; omega
        · intro h
          simp only [List.length_append, List.length_cons, List.length_nil] at h
          exact h2 (by omega)
    · rw [if_neg (by rintro ⟨_, h⟩; exact hc h)]
      constructor
      · intro h
        omega
      · intro _
        exact ⟨_, _, _, rfl, Or.inl (by simp)⟩

/-! ### One path -/

theorem rchr_slash (s junk : List Byte) :
    (ch '/' ∉ s ∧ rchr (some ⟨s ++ junk, s.length⟩) (ch '/').toInt = .ok none) ∨
    (∃ pre core, s = pre ++ ch '/' :: core ∧ ch '/' ∉ core ∧ rchr (some ⟨s ++ junk, s.length⟩) (ch '/').toInt = .ok (some pre.length)) := by
  obtain ⟨r, h1, h2⟩ := Props.stringptr_rchr_correct s junk (ch '/').toInt
  cases r with
  | none =>
    refine Or.inl ⟨fun h => ?_, h1⟩
    obtain ⟨i, hi, e⟩ := List.getElem_of_mem h
    exact h2 i hi (by rw [e])
  | some k =>
    obtain ⟨hk, e, hm⟩ := h2
    refine Or.inr ⟨s.take k, s.drop (k + 1), ?_, ?_, ?_⟩
    · have : s[k] = ch '/' := BitVec.eq_of_toInt_eq e
      rw [← this]
      rw [List.getElem_cons_drop, List.take_append_drop]
    · intro h
      obtain ⟨i, hi, e'⟩ := List.getElem_of_mem h
      rw [List.getElem_drop] at e'
      simp at hi
      exact hm (k + 1 + i) (by omega) (by omega) (by rw [e'])
    · rw [h1, List.length_take, Nat.min_eq_left (by omega)]

theorem last3 (p : List Byte) (h : 3 ≤ p.length) : ∃ q a b c, p = q ++ [a, b, c] := by
  refine ⟨p.take (p.length - 3), p[p.length - 3], p[p.length - 2], p[p.length - 1], ?_⟩
  have e : p.drop (p.length - 3) = [p[p.length - 3], p[p.length - 2], p[p.length - 1]] := by
    rw [List.drop_eq_getElem_cons (by omega), List.drop_eq_getElem_cons (by omega), List.drop_eq_getElem_cons (by omega), List.drop_eq_nil_of_le (by omega)]
    simp only [show p.length - 3 + 1 = p.length - 2 by omega, show p.length - 2 + 1 = p.length - 1 by omega]
  rw [← e, List.take_append_drop]

theorem suffix3 (q : List Byte) (a b c x y z : Byte) : [x, y, z] <:+ q ++ [a, b, c] ↔ a = x ∧ b = y ∧ c = z := by
  constructor
  · rintro ⟨t, h⟩
    have := List.append_inj' h rfl
    simp at this
    exact ⟨this.2.1.symm, this.2.2.1.symm, this.2.2.2.symm⟩
  · rintro ⟨rfl, rfl, rfl⟩
    exact List.suffix_append ..

theorem suffix4 (q : List Byte) (a b c w x y z : Byte) : [w, x, y, z] <:+ q ++ [a, b, c] ↔ (∃ r, q = r ++ [w]) ∧ a = x ∧ b = y ∧ c = z := by
  constructor
  · rintro ⟨t, h⟩
    have h : (t ++ [w]) ++ [x, y, z] = q ++ [a, b, c] := by rw [← h]; simp
    have := List.append_inj' h rfl
    simp at this
    exact ⟨⟨t, this.1.symm⟩, this.2.1.symm, this.2.2.1.symm, this.2.2.2.symm⟩
  · rintro ⟨⟨r, rfl⟩, rfl, rfl, rfl⟩
    exact ⟨r, by simp⟩

instance (flags : BitVec 32) (n : List Byte) : Decidable (IsDot flags n) := by unfold IsDot; infer_instance
instance (flags : BitVec 32) (n : List Byte) : Decidable (IsDotDot flags n) := by unfold IsDotDot; infer_instance
instance (flags : BitVec 32) (n : List Byte) : Decidable (Dropped flags n) := by unfold Dropped; infer_instance

theorem dotPath_spec (flags : BitVec 32) (hx : flags.getLsbD 2 = false) (p junk : List Byte) :
    dotPath flags ⟨p ++ junk, p.length⟩ = .ok (decide (Dropped flags p)) := by
  unfold dotPath
  rw [has_hidden, has_dot, has_dotdot]
  simp only
  by_cases hh : flags.getLsbD 3 = false
  · rw [if_neg (by rw [hh]; simp), decide_eq_false]; · rfl
    rintro ⟨h, _⟩
    rw [hh] at h
    exact absurd h (by simp)
  have hh : flags.getLsbD 3 = true := by simpa using hh
  by_cases h3 : ¬ 3 ≤ p.length
  · rw [if_neg (by simp only [h3, decide_false, Bool.and_false, ge_iff_le]; simp)]
    have : ¬ Dropped flags p := by
      unfold Dropped IsDot IsDotDot
      simp only [hx, Bool.false_eq_true, if_false]
      rintro ⟨_, ⟨_, h⟩ | ⟨_, h⟩⟩
      · have := h.length_le; simp at this; omega
      · have := h.length_le; simp at this; omega
    simp [this]
  obtain ⟨q, a, b, c, rfl⟩ := last3 p (by omega)
  have hd : Dropped flags (q ++ [a, b, c]) ↔ ((flags.getLsbD 0 = false ∧ a = ch '/' ∧ b = ch '.' ∧ c = ch '/') ∨
      (flags.getLsbD 1 = false ∧ (∃ r, q = r ++ [ch '/']) ∧ a = ch '.' ∧ b = ch '.' ∧ c = ch '/')) := by
    unfold Dropped IsDot IsDotDot
    simp only [hx, Bool.false_eq_true, if_false, hh, true_and]
    rw [suffix3, suffix4]
    rfl
  have r1 : rd (q ++ [a, b, c] ++ junk) ((q ++ [a, b, c]).length - 1) = .ok c := by
    rw [show q ++ [a, b, c] ++ junk = (q ++ [a, b]) ++ c :: junk by simp]
    rw [rd_append_right (by simp)]
    simp [rd_cons_zero]
  have r2 : rd (q ++ [a, b, c] ++ junk) ((q ++ [a, b, c]).length - 2) = .ok b := by
    rw [show q ++ [a, b, c] ++ junk = (q ++ [a]) ++ b :: c :: junk by simp]
    rw [rd_append_right (by simp)]
    simp [rd_cons_zero]
  have r3 : rd (q ++ [a, b, c] ++ junk) ((q ++ [a, b, c]).length - 3) = .ok a := by
    rw [show q ++ [a, b, c] ++ junk = q ++ a :: b :: c :: junk by simp]
    rw [rd_append_right (by simp)]
    simp [rd_cons_zero]
  rw [if_pos (by rw [hh]; simp), r1]
  simp only [ok_bind]
  by_cases hc : c = ch '/'
  case neg =>
    rw [if_neg hc, decide_eq_false]; · rfl
    rw [hd]
    rintro (⟨_, _, _, h⟩ | ⟨_, _, _, _, h⟩) <;> exact hc h
  rw [if_pos hc, r2]
  simp only [ok_bind]
  by_cases hb : b = ch '.'
  case neg =>
    rw [if_neg hb, decide_eq_false]; · rfl
    rw [hd]
    rintro (⟨_, _, h, _⟩ | ⟨_, _, _, h, _⟩) <;> exact hb h
  rw [if_pos hb, r3]
  simp only [ok_bind]
  by_cases h1 : flags.getLsbD 0 = false ∧ a = ch '/'
  · rw [if_pos (by rw [h1.1, h1.2]; simp), decide_eq_true]; · rfl
    rw [hd]
    exact Or.inl ⟨h1.1, h1.2, hb, hc⟩
  rw [if_neg (by simp only [Bool.and_eq_true, Bool.not_eq_true', decide_eq_true_eq]; exact h1)]
  by_cases h2 : flags.getLsbD 1 = false ∧ (q ++ [a, b, c]).length ≥ 4 ∧ a = ch '.'
  case neg =>
    rw [if_neg (by simp only [Bool.and_eq_true, Bool.not_eq_true', decide_eq_true_eq]; rintro ⟨⟨x, y⟩, z⟩; exact h2 ⟨x, y, z⟩), decide_eq_false]; · rfl
    rw [hd]
    rintro (⟨x, y, _, _⟩ | ⟨x, ⟨r, y⟩, z, _, _⟩)
    · exact h1 ⟨x, y⟩
    · exact h2 ⟨x, by rw [y]; simp, z⟩
  rw [if_pos (by simp only [Bool.and_eq_true, Bool.not_eq_true', decide_eq_true_eq]; exact ⟨⟨h2.1, h2.2.1⟩, h2.2.2⟩)]
  have hq : q ≠ [] := by
    rintro rfl
    have := h2.2.1
    simp at this
  obtain ⟨r, w, rfl⟩ : ∃ r w, q = r ++ [w] := ⟨_, _, (List.dropLast_concat_getLast hq).symm⟩
  have r4 : rd (r ++ [w] ++ [a, b, c] ++ junk) ((r ++ [w] ++ [a, b, c]).length - 4) = .ok w := by
    rw [show r ++ [w] ++ [a, b, c] ++ junk = r ++ w :: a :: b :: c :: junk by simp]
    rw [rd_append_right (by simp)]
    simp [rd_cons_zero]
  rw [r4]
  simp only [ok_bind]
  congr 1
  apply decide_eq_decide.2
  rw [hd]
  constructor
  · intro hw
    exact Or.inr ⟨h2.1, ⟨r, by rw [hw]⟩, h2.2.2, hb, hc⟩
  · rintro (⟨x, y, _, _⟩ | ⟨x, ⟨r', y⟩, z, _, _⟩)
    · exact absurd ⟨x, y⟩ h1
    · exact (List.append_inj' y rfl).2 |> fun h => by simpa using h

theorem dotName_spec (flags : BitVec 32) (hx : flags.getLsbD 2 = true) (n junk : List Byte) (hn : n ≠ []) :
    dotName flags ⟨n ++ junk, n.length⟩ = .ok (decide (Dropped flags n)) := by
  unfold dotName
  rw [has_hidden, has_dot, has_dotdot]
  simp only
  by_cases hh : flags.getLsbD 3 = false
  · rw [if_neg (by rw [hh]; simp), decide_eq_false]; · rfl
    rintro ⟨h, _⟩
    rw [hh] at h
    exact absurd h (by simp)
  have hh : flags.getLsbD 3 = true := by simpa using hh
  have hd : Dropped flags n ↔ ((flags.getLsbD 0 = false ∧ n = [ch '.', ch '/']) ∨ (flags.getLsbD 1 = false ∧ n = [ch '.', ch '.', ch '/'])) := by
    unfold Dropped IsDot IsDotDot
    simp only [hx, if_true, hh, true_and]
    rfl
  rw [if_pos hh]
  obtain ⟨a, n', rfl⟩ := List.exists_cons_of_ne_nil hn
  simp only [List.cons_append, rd_cons_zero, ok_bind]
  by_cases ha : a = ch '.'
  case neg =>
    rw [if_neg ha, decide_eq_false]; · rfl
    rw [hd]
    rintro (⟨_, h⟩ | ⟨_, h⟩) <;> exact ha (by simpa using (List.cons.inj h).1)
  rw [if_pos ha]
  by_cases h1 : flags.getLsbD 0 = false ∧ (a :: n').length = 2
  · rw [if_pos (by simp only [Bool.and_eq_true, Bool.not_eq_true', decide_eq_true_eq]; exact h1)]
    obtain ⟨b, rfl⟩ : ∃ b, n' = [b] := by
      match n', h1.2 with
      | [b], _ => exact ⟨b, rfl⟩
    simp only [List.cons_append, rd_cons_succ, rd_cons_zero, ok_bind]
    show Except.ok _ = Except.ok _
    congr 1
    apply decide_eq_decide.2
    rw [hd]
    constructor
    · intro hb
      exact Or.inl ⟨h1.1, by rw [ha, hb]⟩
    · rintro (⟨_, h⟩ | ⟨_, h⟩)
      · simpa using (List.cons.inj (List.cons.inj h).2).1
      · have := congrArg List.length h; simp at this
  rw [if_neg (by simp only [Bool.and_eq_true, Bool.not_eq_true', decide_eq_true_eq]; exact h1)]
  by_cases h2 : flags.getLsbD 1 = false ∧ (a :: n').length = 3
  case neg =>
    rw [if_neg (by simp only [Bool.and_eq_true, Bool.not_eq_true', decide_eq_true_eq]; exact h2), decide_eq_false]; · rfl
    rw [hd]
    rintro (⟨x, h⟩ | ⟨x, h⟩)
    · exact h1 ⟨x, by rw [h]; rfl⟩
    · exact h2 ⟨x, by rw [h]; rfl⟩
  rw [if_pos (by simp only [Bool.and_eq_true, Bool.not_eq_true', decide_eq_true_eq]; exact h2)]
  obtain ⟨b, c, rfl⟩ : ∃ b c, n' = [b, c] := by
    match n', h2.2 with
    | [b, c], _ => exact ⟨b, c, rfl⟩
  simp only [List.cons_append, rd_cons_succ, rd_cons_zero, ok_bind]
  have hl : ∀ x y z : Byte, [x, y, z] ≠ [ch '.', ch '/'] := by intro x y z h; have := congrArg List.length h; simp at this
  by_cases hb : b = ch '.'
  · rw [if_pos hb]
    show Except.ok _ = Except.ok _
    congr 1
    apply decide_eq_decide.2
    rw [hd]
    constructor
    · intro hc
      exact Or.inr ⟨h2.1, by rw [ha, hb, hc]⟩
    · rintro (⟨_, h⟩ | ⟨_, h⟩)
      · exact absurd h (hl _ _ _)
      · simpa using (List.cons.inj (List.cons.inj (List.cons.inj h).2).2).1
  · rw [if_neg hb, decide_eq_false]; · rfl
    rw [hd]
    rintro (⟨_, h⟩ | ⟨_, h⟩)
    · exact absurd h (hl _ _ _)
    · exact hb (by simpa using (List.cons.inj (List.cons.inj h).2).1)

theorem slash_unique {a b a' b' : List Byte} (h : a ++ ch '/' :: b = a' ++ ch '/' :: b') (hb : ch '/' ∉ b) (hb' : ch '/' ∉ b') : a = a' ∧ b = b' := by
  rcases List.append_eq_append_iff.1 h with ⟨x, h1, h2⟩ | ⟨x, h1, h2⟩
  · cases x with
    | nil => simp at h1 h2; exact ⟨h1.symm, h2⟩
    | cons y x =>
      rw [List.cons_append] at h2
      have := (List.cons.inj h2).2
      exact absurd (by rw [this]; simp) hb
  · cases x with
    | nil => simp at h1 h2; exact ⟨h1, h2.symm⟩
    | cons y x =>
      rw [List.cons_append] at h2
      have := (List.cons.inj h2).2
      exact absurd (by rw [this]; simp) hb'

/-- What happens to a path, if its name is `n`. -/
theorem body_name (flags : BitVec 32) (p n junk : List Byte) (h0 : 0 ∉ p) (hp : p ≠ []) (hn : Name flags p n) :
    ∃ tl, body flags (p ++ 0 :: junk) = .ok (if Dropped flags n then .skip else .add ⟨n ++ 0 :: tl, n.length⟩) := by
  have hl : p.length ≠ 0 := by
    intro h; exact hp (List.eq_nil_of_length_eq_zero h)
  refine ⟨junk, ?_⟩
  unfold body
  rw [Hex.strlen_cstr p junk h0]
  simp only [ok_bind]
  rw [if_neg hl, has_exclude]
  unfold Name at hn
  by_cases hx : flags.getLsbD 2 = false
  · simp only [hx, Bool.false_eq_true, if_false] at hn
    subst hn
    rw [hx, dotPath_spec flags hx]
    simp only [Bool.not_false, if_true, ok_bind]
    by_cases hd : Dropped flags n <;> simp [hd] <;> rfl
  · have hx : flags.getLsbD 2 = true := by simpa using hx
    rw [hx] at hn ⊢
    simp only [if_true] at hn
    obtain ⟨pre, core, tail, e1, e2, hc, ht⟩ := hn
    simp only [Bool.not_true, Bool.false_eq_true, if_false]
    rcases ht with ⟨rfl, hne⟩ | rfl
    · rw [List.append_nil] at e1 e2
      subst e2
      have hlast : rd (p ++ 0 :: junk) (p.length - 1) = .ok (n.getLast hne) := by
        rw [rd_append_left (by omega), rd_ok (by omega)]
        congr 1
        rw [← List.getLast_eq_getElem hp]
        subst e1
        rw [List.getLast_append_of_ne_nil _ (by simp), List.getLast_cons hne]
      have hnl : n.getLast hne ≠ ch '/' := fun h => hc (h ▸ List.getLast_mem hne)
      rw [hlast]
      simp only [ok_bind, hnl, decide_false, Bool.false_eq_true, if_false, pure_eq_ok]
      rcases rchr_slash p (0 :: junk) with ⟨h, _⟩ | ⟨pre', core', e3, h, hr⟩
      · exact absurd (by rw [e1]; simp) h
      · obtain ⟨rfl, rfl⟩ := slash_unique (e1.symm.trans e3) hc h
        rw [hr]
        simp only [ok_bind]
        rw [show List.drop (pre.length + 1) (p ++ 0 :: junk) = n ++ 0 :: junk by rw [e1]; simp [List.drop_append],
          show p.length - (pre.length + 1) = n.length by rw [e1]; simp; omega, dotName_spec flags hx n _ hne]
        simp only [ok_bind]
        by_cases hd : Dropped flags n <;> simp [hd]
    · generalize hq : pre ++ ch '/' :: core = q
      have e1' : p = q ++ [ch '/'] := by rw [e1, ← hq]; simp
      have hlast : rd (p ++ 0 :: junk) (p.length - 1) = .ok (ch '/') := by
        rw [e1', List.append_assoc, rd_append_right (by simp)]
        simp [rd_cons_zero]
      rw [hlast]
      simp only [ok_bind, decide_true, if_true]
      have hsz : p.length - 1 = q.length := by rw [e1']; simp
      have hbuf : p ++ 0 :: junk = q ++ ch '/' :: 0 :: junk := by rw [e1']; simp
      rw [hsz, hbuf, wr_append rfl]
      simp only [ok_bind, pure_eq_ok]
      rcases rchr_slash q (0 :: 0 :: junk) with ⟨h, _⟩ | ⟨pre', core', e3, h, hr⟩
      · exact absurd (by rw [← hq]; simp) h
      · obtain ⟨rfl, rfl⟩ := slash_unique (hq.trans e3) hc h
        rw [hr]
        simp only [ok_bind]
        rw [Nat.add_sub_cancel, wr_append rfl]
        simp only [ok_bind]
        have hne : n ≠ [] := by rw [e2]; simp
        rw [show List.drop (pre.length + 1) (q ++ ch '/' :: 0 :: junk) = n ++ 0 :: junk by rw [← hq, e2]; simp [List.drop_append],
          show q.length + 1 - (pre.length + 1) = n.length by rw [← hq, e2]; simp <;> omega, dotName_spec flags hx n _ hne]
        simp only [ok_bind]
        by_cases hd : Dropped flags n <;> simp [hd]

/-- A path that is not below a directory. -/
theorem body_err (flags : BitVec 32) (p junk : List Byte) (h0 : 0 ∉ p) (hp : p ≠ []) (hn : ¬ ∃ n, Name flags p n) : body flags (p ++ 0 :: junk) = .ok .err := by
  have hl : p.length ≠ 0 := by
    intro h; exact hp (List.eq_nil_of_length_eq_zero h)
  unfold body
  rw [Hex.strlen_cstr p junk h0]
  simp only [ok_bind]
  rw [if_neg hl, has_exclude]
  unfold Name at hn
  by_cases hx : flags.getLsbD 2 = false
  · simp only [hx, Bool.false_eq_true, if_false] at hn
    exact absurd ⟨p, rfl⟩ hn
  · have hx : flags.getLsbD 2 = true := by simpa using hx
    rw [hx] at hn ⊢
    simp only [if_true] at hn
    simp only [Bool.not_true, Bool.false_eq_true, if_false]
    obtain ⟨q, c, rfl⟩ : ∃ q c, p = q ++ [c] := ⟨_, _, (List.dropLast_concat_getLast hp).symm⟩
    have hlast : rd (q ++ [c] ++ 0 :: junk) ((q ++ [c]).length - 1) = .ok c := by
      rw [List.append_assoc, rd_append_right (by simp)]
      simp [rd_cons_zero]
    rw [hlast]
    simp only [ok_bind]
    by_cases hc : c = ch '/'
    · simp only [hc, decide_true, if_true]
      rw [show (q ++ [ch '/']).length - 1 = q.length by simp, List.append_assoc, List.singleton_append, wr_append rfl]
      simp only [ok_bind, pure_eq_ok]
      rcases rchr_slash q (0 :: 0 :: junk) with ⟨_, hr⟩ | ⟨pre, core, e3, h, hr⟩
      · rw [hr]; rfl
      · exact absurd ⟨_, pre, core, [ch '/'], by rw [hc, e3]; simp, rfl, h, Or.inr rfl⟩ hn
    · simp only [hc, decide_false, Bool.false_eq_true, if_false, pure_eq_ok, ok_bind]
      rcases rchr_slash (q ++ [c]) (0 :: junk) with ⟨_, hr⟩ | ⟨pre, core, e3, h, hr⟩
      · rw [hr]; rfl
      · refine absurd ⟨_, pre, core, [], by rw [e3]; simp, rfl, h, Or.inl ⟨rfl, ?_⟩⟩ hn
        rintro rfl
        exact hc (by simpa using (List.append_inj' e3 rfl).2)

/-! ### The loop -/

theorem holdsAll_append {l m : List SP} {ls ms : List (List Byte)} (h : HoldsAll l ls) (h' : HoldsAll m ms) : HoldsAll (l ++ m) (ls ++ ms) := by
  induction h with
  | nil => exact h'
  | cons h _ ih => exact .cons h ih

/-- The loop adds the names, or fails for lack of memory. -/
theorem pathLoop_spec (flags : BitVec 32) (grow : Nat → Bool) {ps ns : List (List Byte)} (h : Entries flags ps ns) : (∀ p ∈ ps, 0 ∉ p) →
    ∀ (k : Nat) (files : List SP) (fs : List (List Byte)), HoldsAll files fs →
    (∃ files', pathLoop flags grow k (ps.map (· ++ [0])) files = .ok (0, files') ∧ HoldsAll files' (fs ++ ns) ∧ ∀ i, i < ns.length → grow (k + i) = true) ∨
    (pathLoop flags grow k (ps.map (· ++ [0])) files = .ok (-1, []) ∧ ∃ i, i < ns.length ∧ grow (k + i) = false) := by
  induction h with
  | nil =>
    intro _ k files fs hf
    exact Or.inl ⟨files, rfl, by simpa using hf, by simp⟩
  | empty _ ih =>
    intro h0 k files fs hf
    simp only [List.map_cons]
    unfold pathLoop
    rw [show body flags ([] ++ [0]) = .ok .skip from rfl]
    simp only [ok_bind]
    exact ih (fun p hp => h0 p (List.mem_cons_of_mem _ hp)) k files fs hf
  | @keep p n ps ns hp hn hd _ ih =>
    intro h0 k files fs hf
    simp only [List.map_cons]
    unfold pathLoop
    obtain ⟨tl, e⟩ := body_name flags p n [] (h0 p List.mem_cons_self) hp hn
    rw [e, if_neg hd]
    simp only [ok_bind]
    cases hg : grow k with
    | false =>
      right
      exact ⟨by simp, 0, by simp, hg⟩
    | true =>
      rw [if_pos rfl]
      have hf' : HoldsAll (files ++ [⟨n ++ 0 :: tl, n.length⟩]) (fs ++ [n]) :=
        holdsAll_append hf (.cons ⟨rfl, List.prefix_append ..⟩ .nil)
      rcases ih (fun p hp => h0 p (List.mem_cons_of_mem _ hp)) (k + 1) _ _ hf' with ⟨f', h1, h2, h3⟩ | ⟨h1, i, hi, h2⟩
      · left
        refine ⟨f', h1, by simpa using h2, ?_⟩
        intro i hi
        cases i with
        | zero => exact hg
        | succ i =>
          have := h3 i (by simpa using hi)
          rw [← this]; congr 1; omega
      · right
        exact ⟨h1, i + 1, by simpa using hi, by rw [← h2]; congr 1; omega⟩
  | @drop p n ps ns hp hn hd _ ih =>
    intro h0 k files fs hf
    simp only [List.map_cons]
    unfold pathLoop
    obtain ⟨tl, e⟩ := body_name flags p n [] (h0 p List.mem_cons_self) hp hn
    rw [e, if_pos hd]
    simp only [ok_bind]
    exact ih (fun p hp => h0 p (List.mem_cons_of_mem _ hp)) k files fs hf

/-- A path without name. -/
theorem pathLoop_err (flags : BitVec 32) (grow : Nat → Bool) : ∀ (ps : List (List Byte)), (∀ p ∈ ps, 0 ∉ p) → (∃ p ∈ ps, p ≠ [] ∧ ¬ ∃ n, Name flags p n) →
    ∀ (k : Nat) (files : List SP), pathLoop flags grow k (ps.map (· ++ [0])) files = .ok (-1, []) := by
  intro ps
  induction ps with
  | nil => rintro _ ⟨p, hp, _⟩; exact absurd hp (by simp)
  | cons p ps ih =>
    intro h0 hex k files
    simp only [List.map_cons]
    unfold pathLoop
    by_cases hp : p = []
    · subst hp
      rw [show body flags ([] ++ [0]) = .ok .skip from rfl]
      simp only [ok_bind]
      refine ih (fun p hp => h0 p (List.mem_cons_of_mem _ hp)) ?_ k files
      obtain ⟨p, h1, h2, h3⟩ := hex
      rcases List.mem_cons.1 h1 with rfl | h1
      · exact absurd rfl h2
      · exact ⟨p, h1, h2, h3⟩
    · by_cases hn : ∃ n, Name flags p n
      · obtain ⟨n, hn⟩ := hn
        obtain ⟨tl, e⟩ := body_name flags p n [] (h0 p List.mem_cons_self) hp hn
        have rest : ∃ p ∈ ps, p ≠ [] ∧ ¬ ∃ n, Name flags p n := by
          obtain ⟨p', h1, h2, h3⟩ := hex
          rcases List.mem_cons.1 h1 with rfl | h1
          · exact absurd ⟨n, hn⟩ h3
          · exact ⟨p', h1, h2, h3⟩
        have ih := ih (fun p hp => h0 p (List.mem_cons_of_mem _ hp)) rest
        rw [e]
        simp only [ok_bind]
        by_cases hd : Dropped flags n
        · rw [if_pos hd]; exact ih k files
        · rw [if_neg hd]
          simp only
          split
          · exact ih _ _
          · rfl
      · rw [body_err flags p [] (h0 p List.mem_cons_self) hp hn]
        rfl

/-- The string literals. -/
theorem literals_spec (flags : BitVec 32) (grow : Nat → Bool) : ∃ fs, HoldsAll (literals flags grow).2 fs ∧ fs.Sublist (dots flags) ∧ ((∀ k, grow k = true) → fs = dots flags) ∧
    (literals flags grow).1 = (dots flags).length := by
  unfold literals dots
  rw [has_hidden, has_dot, has_dotdot]
  have d1 : Holds ⟨bytes! "./" ++ [0], 2⟩ (bytes! "./") := ⟨rfl, [0], rfl⟩
  have d2 : Holds ⟨bytes! "../" ++ [0], 3⟩ (bytes! "../") := ⟨rfl, [0], rfl⟩
  cases flags.getLsbD 3 with
  | true => exact ⟨[], .nil, List.nil_sublist _, fun _ => rfl, rfl⟩
  | false =>
    cases flags.getLsbD 0 <;> cases flags.getLsbD 1 <;> simp only [Bool.not_false, if_true, Bool.false_eq_true, if_false, List.append_nil, List.nil_append, Nat.zero_add]
    · exact ⟨[], .nil, List.nil_sublist _, fun _ => rfl, rfl⟩
    · cases h : grow 0
      · exact ⟨[], .nil, List.nil_sublist _, fun hk => by rw [hk 0] at h; simp at h, rfl⟩
      · exact ⟨_, .cons d2 .nil, List.Sublist.refl _, fun _ => rfl, rfl⟩
    · cases h : grow 0
      · exact ⟨[], .nil, List.nil_sublist _, fun hk => by rw [hk 0] at h; simp at h, rfl⟩
      · exact ⟨_, .cons d1 .nil, List.Sublist.refl _, fun _ => rfl, rfl⟩
    · cases h : grow 0 <;> cases h' : grow 1
      · exact ⟨[], .nil, List.nil_sublist _, fun hk => by rw [hk 0] at h; simp at h, rfl⟩
      · exact ⟨_, .cons d2 .nil, by simp, fun hk => by rw [hk 0] at h; simp at h, rfl⟩
      · exact ⟨_, .cons d1 .nil, by simp, fun hk => by rw [hk 1] at h'; simp at h', rfl⟩
      · exact ⟨_, .cons d1 (.cons d2 .nil), List.Sublist.refl _, fun _ => rfl, rfl⟩

/-! ### The search -/

theorem cstr_stop (a j : List Byte) : cstr (a ++ 0 :: j) = cstr (a ++ [0]) := by
  unfold cstr
  induction a with
  | nil => simp
  | cons c a ih =>
    simp only [List.cons_append, List.takeWhile_cons]
    split
    · rw [ih]
    · rfl

theorem cstr_clean (a : List Byte) (h : 0 ∉ a) : cstr (a ++ [0]) = a := by
  unfold cstr
  induction a with
  | nil => rfl
  | cons c a ih =>
    rw [List.cons_append, List.takeWhile_cons, if_pos, ih (fun hm => h (List.mem_cons_of_mem _ hm))]
    have : c ≠ 0 := fun e => h (e ▸ List.mem_cons_self)
    simpa using this

theorem pattern_clean (d m : List Byte) (hd : 0 ∉ d) (hm : 0 ∉ m) : cstr (pattern d m ++ [0]) = pattern d m := by
  apply cstr_clean
  unfold pattern
  intro h
  rcases List.mem_append.1 h with h | h
  · rcases List.mem_append.1 h with h | h
    · unfold escape at h
      obtain ⟨c, hc, h⟩ := List.mem_flatMap.1 h
      split at h
      · rcases List.mem_cons.1 h with h | h
        · revert h; decide
        · rw [List.mem_singleton] at h; exact hd (h ▸ hc)
      · rw [List.mem_singleton] at h; exact hd (h ▸ hc)
    · split at h
      · exact absurd h (by simp)
      · rw [List.mem_singleton] at h
        revert h; decide
  · exact hm h

/-! ### Patterns -/

theorem literal_unique {p t t' : List Byte} (h : Literal p t) (h' : Literal p t') : t = t' := by
  induction h generalizing t' with
  | nil => cases h'; rfl
  | quoted _ ih =>
    cases h' with
    | quoted h' => rw [ih h']
    | plain _ hne _ => exact absurd rfl hne
  | plain _ hne _ ih =>
    cases h' with
    | quoted h' => exact absurd rfl hne
    | plain _ _ h' => rw [ih h']

theorem literal_escape (d : List Byte) (h : ch '\\' ∉ d) (p t : List Byte) (hl : Literal p t) : Literal (escape d ++ p) (d ++ t) := by
  induction d with
  | nil => exact hl
  | cons c d ih =>
    have ih := ih fun hm => h (List.mem_cons_of_mem _ hm)
    rw [escape_cons]
    split
    · exact .quoted ih
    · rename_i hs
      exact .plain hs (fun e => h (e ▸ List.mem_cons_self)) ih

/-- The directory that is searched. -/
theorem search_spec (dir : Option SP) (d : List Byte) (hdir : (∃ p, dir = some p ∧ Holds p d ∧ d ≠ []) ∨ (d = bytes! "./" ∧ ∀ p, dir = some p → p.size = 0))
    (mask : SP) (m : List Byte) (hm : Holds mask m) (hm0 : m ≠ []) (hsz : d.length + m.length + 2 < 2 ^ 64) (flags : BitVec 32) (buf : List Byte) (hbuf : buf.length = 4096)
    (glob : List Byte → Bool → Except Int (List (List Byte))) (new : Bool) (grow : Nat → Bool) :
    filelist_search true dir (some mask) flags buf glob new grow =
      if (escape d).length + m.length + 2 < 4096 then
        match glob (cstr (pattern d m ++ [0])) (flags.getLsbD 3) with
        | .error ret => .ok (ret, [])
        | .ok paths => if !new then .ok (-1, []) else pathLoop flags grow (literals flags grow).1 paths (literals flags grow).2
      else .ok (-1, []) := by
  -- the directory
  obtain ⟨D, hD, hDe, hd0⟩ : ∃ D : SP, Holds D d ∧ useDir dir = D ∧ d ≠ [] := by
    unfold useDir
    rcases hdir with ⟨p, rfl, hp, h0⟩ | ⟨rfl, hp⟩
    · refine ⟨p, hp, ?_, h0⟩
      simp only
      rw [if_neg]
      rw [hp.1]
      intro h
      exact h0 (List.eq_nil_of_length_eq_zero h)
    · refine ⟨⟨bytes! "./" ++ [0], 2⟩, ⟨rfl, [0], rfl⟩, ?_, by simp⟩
      cases dir with
      | none => rfl
      | some p => simp only; rw [if_pos (hp p rfl)]
  unfold filelist_search
  simp only [hDe]
  obtain ⟨hDs, jd, hDb⟩ := hD
  obtain ⟨hms, jm, hmb⟩ := hm
  obtain ⟨d', c, hdc⟩ : ∃ d' c, d = d' ++ [c] := ⟨_, _, (List.dropLast_concat_getLast hd0).symm⟩
  have hlast : rd D.buf (D.size - 1) = .ok c := by
    rw [hDs, ← hDb, hdc, List.append_assoc, rd_append_right (by simp)]
    simp [rd_cons_zero]
  have hgl : d.getLast? = some c := by rw [hdc]; simp
  have hml : m.length ≠ 0 := by
    intro h; exact hm0 (List.eq_nil_of_length_eq_zero h)
  have hle := escape_length_le d
  rw [if_neg (by simp), if_neg (by omega), hlast]
  simp only [ok_bind]
  have hszt : szt (mask.size + D.size + (if decide (c = ch '/') = true then 0 else 1) + 1) = mask.size + D.size + (if decide (c = ch '/') = true then 0 else 1) + 1 := by
    apply szt_of_lt
    split <;> omega
  rw [hszt]
  obtain ⟨k1, k2⟩ := escLoop_spec d jd (D.size + 1) [] buf (by omega) hbuf (by simp)
  simp only [List.length_nil, Nat.zero_add, put_nil, List.nil_append] at k1 k2
  by_cases hfit : (escape d).length + m.length + 2 < 4096
  · rw [if_pos hfit, if_neg (by unfold PATH_MAX; split <;> omega)]
    unfold cpystr_escape
    rw [← hDb, hDs]
    rw [hDs] at k1
    rw [k1 (by omega)]
    simp only [ok_bind]
    rw [if_neg (by unfold PATH_MAX; omega)]
    simp only [ok_bind, pure_eq_ok]
    rw [if_neg (by unfold PATH_MAX; omega)]
    have hrd : rdN mask.buf 0 mask.size = .ok m := by
      rw [hms, ← hmb]; exact rdN_mid (A := []) rfl rfl
    rw [hrd]
    simp only [ok_bind]
    -- writing
    have hw : ∀ x : List Byte, x.length + m.length + 1 ≤ 4096 →
        (do let buf ← wrN (put buf 0 x) x.length m; wr buf (x.length + m.length) 0) = (.ok (put buf 0 (x ++ m ++ [0])) : C (List Byte)) := by
      intro x hx
      unfold wrN
      rw [if_pos (by rw [put_length (by omega)]; omega)]
      simp only [ok_bind]
      have e : put (put buf 0 x) x.length m = put buf 0 (x ++ m) := by
        unfold put
        simp [List.drop_append, List.take_append]
      rw [e, wr_put0 (by simp) (by omega)]
    have hcs : ∀ x : List Byte, cstr (put buf 0 (x ++ m ++ [0])) = cstr (x ++ m ++ [0]) := by
      intro x
      rw [put_zero, List.append_assoc (x ++ m)]
      exact cstr_stop _ _
    have fin : ∀ x : List Byte, x.length + m.length + 1 ≤ 4096 → pattern d m = x ++ m →
        (do let buf ← wrN (put buf 0 x) x.length m
            let buf ← wr buf (x.length + m.length) 0
            match glob (cstr buf) (has flags INCLUDE_HIDDEN) with
            | .error ret => pure (ret, [])
            | .ok paths =>
              if !new then pure (-1, [])
              else
                pathLoop flags grow (literals flags grow).1 paths (literals flags grow).2 : C (Int × List SP)) =
          match glob (cstr (pattern d m ++ [0])) (flags.getLsbD 3) with
          | .error ret => .ok (ret, [])
          | .ok paths => if !new then .ok (-1, []) else pathLoop flags grow (literals flags grow).1 paths (literals flags grow).2 := by
      intro x hx hpat
      have hw := hw x hx
      unfold wrN at hw ⊢
      rw [if_pos (by rw [put_length (by omega)]; omega)] at hw ⊢
      simp only [ok_bind] at hw ⊢
      rw [hw]
      simp only [ok_bind]
      rw [hcs, has_hidden, hpat]
      rfl
    rw [hms]
    by_cases hc : c = ch '/'
    · simp only [hc, decide_true, if_true, ok_bind]
      exact fin (escape d) (by omega) (by unfold pattern; rw [hgl, hc, if_pos rfl, List.append_nil])
    · simp only [hc, decide_false, Bool.false_eq_true, if_false]
      rw [wr_put0 rfl (by omega)]
      simp only [ok_bind]
      have := fin (escape d ++ [ch '/']) (by simp; omega) (by unfold pattern; rw [hgl, if_neg (by simpa using hc)])
      rw [show (escape d ++ [ch '/']).length = (escape d).length + 1 by simp] at this
      exact this
  · rw [if_neg hfit]
    by_cases h1 : mask.size + D.size + (if decide (c = ch '/') = true then 0 else 1) + 1 > PATH_MAX
    · rw [if_pos h1]; rfl
    · rw [if_neg h1]
      unfold cpystr_escape
      rw [← hDb, hDs]
      rw [hDs] at k1 k2
      by_cases h2 : (escape d).length < 4094
      · rw [k1 h2]
        simp only [ok_bind]
        rw [if_neg (by unfold PATH_MAX; omega)]
        simp only [ok_bind, pure_eq_ok]
        rw [if_pos (by unfold PATH_MAX; omega)]
      · obtain ⟨k, out', n, e, h3⟩ := k2 (by omega)
        rw [e]
        simp only [ok_bind]
        split
        · rfl
        · simp only [ok_bind, pure_eq_ok]
          rw [if_pos]
          unfold PATH_MAX
          omega

theorem escape_special {c : Byte} (h : Special c) (d : List Byte) : Spec.escape (c :: d) = ch '\\' :: c :: Spec.escape d := by
  unfold Spec.escape; rw [List.flatMap_cons, if_pos h]; rfl

theorem escape_other {c : Byte} (h : ¬ Special c) (d : List Byte) : Spec.escape (c :: d) = c :: Spec.escape d := by
  unfold Spec.escape; rw [List.flatMap_cons, if_neg h]; rfl

theorem literal_quoted {c : Byte} {p t : List Byte} (h : Literal (ch '\\' :: c :: p) t) : ∃ t', t = c :: t' ∧ Literal p t' := by
  cases h with
  | quoted h' => exact ⟨_, rfl, h'⟩
  | plain _ h2 _ => exact absurd rfl h2

theorem literal_plain {c : Byte} {p t : List Byte} (hc : c ≠ ch '\\') (h : Literal (c :: p) t) :
    ¬ Special c ∧ ∃ t', t = c :: t' ∧ Literal p t' := by
  cases h with
  | quoted h' => exact absurd rfl hc
  | plain h1 _ h3 => exact ⟨h1, _, rfl, h3⟩

theorem literal_single {t : List Byte} : ¬ Literal [ch '\\'] t := by
  intro h
  cases h with
  | plain _ h2 _ => exact h2 rfl

theorem literal_shortens : ∀ (d t : List Byte), Literal (Spec.escape d) t → t.length ≤ d.length ∧ (ch '\\' ∈ d → t.length < d.length)
  | [], t, h => by
    cases h
    simp
  | c :: d, t, h => by
    by_cases hs : Special c
    · have hc : c ≠ ch '\\' := by rintro rfl; exact absurd hs (by decide)
      rw [escape_special hs] at h
      obtain ⟨t', rfl, h'⟩ := literal_quoted h
      have := literal_shortens d _ h'
      simp only [List.length_cons, List.mem_cons, Ne.symm hc, false_or]
      exact ⟨by omega, fun hm => by have := this.2 hm; omega⟩
    · rw [escape_other hs] at h
      by_cases hc : c = ch '\\'
      · subst hc
        match d, h with
        | [], h => exact absurd h literal_single
        | x :: d, h =>
          by_cases hx : Special x
          · have hxc : x ≠ ch '\\' := by rintro rfl; exact absurd hx (by decide)
            rw [escape_special hx] at h
            obtain ⟨t', rfl, h'⟩ := literal_quoted h
            exact absurd hx (literal_plain hxc h').1
          · rw [escape_other hx] at h
            obtain ⟨t', rfl, h'⟩ := literal_quoted h
            have := literal_shortens d _ h'
            simp only [List.length_cons]
            exact ⟨by omega, fun _ => by omega⟩
      · obtain ⟨_, t', rfl, h'⟩ := literal_plain hc h
        have := literal_shortens d _ h'
        simp only [List.length_cons, List.mem_cons, Ne.symm hc, false_or]
        exact ⟨by omega, fun hm => by have := this.2 hm; omega⟩

end Ulz.Filelist

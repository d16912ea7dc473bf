import Verif.Spec.Wholefile
import Verif.Proofs.Stringptr
/-! Lemmas about whole-file input and output. -/
namespace Ulz.Wholefile
open Stringptr Stringptr.Spec Spec

theorem useful_cons_zero (as : List (Option Nat)) : useful (some 0 :: as) = useful as := rfl
theorem useful_cons_pos (k : Nat) (h : 0 < k) (as : List (Option Nat)) : useful (some k :: as) = useful as + 1 := by
  unfold useful
  rw [List.filter_cons_of_pos (by simp; omega)]; rfl

theorem chunk_le (n : Nat) : chunk n ≤ n := by unfold chunk; split <;> omega
theorem chunk_pos (n : Nat) (h : 0 < n) : 0 < chunk n := by unfold chunk; split <;> omega

theorem take_step (s : List Byte) (pos n k : Nat) (hn : pos + n ≤ s.length) :
    s.take pos ++ ((s.drop pos).take n).take k = s.take (pos + min k n) ∧ (((s.drop pos).take n).take k).length = min k n := by
  constructor
  · rw [List.take_take, List.take_add]
  · simp; omega

theorem tofileLoop_spec {p : SP} {s : List Byte} (h : Holds p s) : ∀ (as : List (Option Nat)) (pos : Nat), pos ≤ s.length →
    (∃ r, tofileLoop p as pos (s.take pos) = .ok (s.take r, r) ∧ r ≤ s.length ∧ (r < s.length → none ∈ as)) ∨
    (tofileLoop p as pos (s.take pos) = .error .hang ∧ none ∉ as ∧ useful as < s.length - pos) := by
  obtain ⟨hs, tl, hp⟩ := h
  intro as
  induction as with
  | nil =>
    intro pos hpos
    unfold tofileLoop
    by_cases c : pos < p.size
    · rw [if_pos c]
      exact Or.inr ⟨rfl, by simp, by simp [useful]; omega⟩
    · rw [if_neg c]
      exact Or.inl ⟨pos, rfl, hpos, by omega⟩
  | cons a as ih =>
    intro pos hpos
    unfold tofileLoop
    by_cases c : pos < p.size
    · rw [if_pos c]
      have hc := chunk_le (p.size - pos)
      have hc' := chunk_pos (p.size - pos) (by omega)
      have e : rdN p.buf pos (chunk (p.size - pos)) = .ok ((s.drop pos).take (chunk (p.size - pos))) := by
        unfold rdN
        rw [← hp, if_pos (by simp; omega), List.drop_append_of_le_length (by omega), List.take_append_of_le_length (by simp; omega)]
      rw [e]
      simp only [ok_bind]
      cases a with
      | none => exact Or.inl ⟨pos, rfl, hpos, by simp⟩
      | some k =>
        obtain ⟨e1, e2⟩ := take_step s pos (chunk (p.size - pos)) k (by omega)
        simp only
        rw [e1, e2]
        rcases ih (pos + min k (chunk (p.size - pos))) (by omega) with ⟨r, h1, h2, h3⟩ | ⟨h1, h2, h3⟩
        · exact Or.inl ⟨r, h1, h2, fun h => List.mem_cons_of_mem _ (h3 h)⟩
        · refine Or.inr ⟨h1, by simpa using h2, ?_⟩
          rcases Nat.eq_zero_or_pos k with rfl | hk
          · rw [useful_cons_zero]; omega
          · rw [useful_cons_pos k hk]; omega
    · rw [if_neg c]
      exact Or.inl ⟨pos, rfl, hpos, by omega⟩

theorem tofileLoop_zero {p : SP} {s : List Byte} (h : Holds p s) (hs : s ≠ []) : ∀ n, tofileLoop p (List.replicate n (some 0)) 0 [] = .error .hang := by
  obtain ⟨hsz, tl, hp⟩ := h
  have hl := List.length_pos_iff.2 hs
  intro n
  induction n with
  | zero => unfold tofileLoop; simp only [List.replicate]; rw [if_pos (by omega)]
  | succ n ih =>
    have hc := chunk_le (p.size - 0)
    have e : rdN p.buf 0 (chunk (p.size - 0)) = .ok (s.take (chunk (p.size - 0))) := by
      unfold rdN
      rw [← hp, if_pos (by rw [List.length_append]; omega), List.drop_zero, List.take_append_of_le_length (by omega)]
    rw [List.replicate_succ]
    unfold tofileLoop
    rw [if_pos (by omega), e]
    simpa using ih

/-! ### Reading -/

theorem put_grow (data b : List Byte) (pos n k : Nat) (h1 : pos + n ≤ data.length) (h2 : pos + n ≤ b.length) :
    put (put b 0 (data.take pos)) pos (((data.drop pos).take n).take k) = put b 0 (data.take (pos + min k n)) := by
  obtain ⟨e1, e2⟩ := take_step data pos n k h1
  rw [← e1]
  unfold put
  have e3 : (data.take pos).length = pos := by simp; omega
  simp only [List.take_zero, List.nil_append, Nat.zero_add, e3]
  generalize ((data.drop pos).take n).take k = x
  generalize data.take pos = d at e3
  subst e3
  simp [List.drop_append]

theorem fromfileLoop_short (data : List Byte) (size : Nat) (hd : data.length < size) (b : List Byte) (hb : size ≤ b.length) : 
    ∀ (as : List (Option Nat)) (pos : Nat), pos ≤ data.length →
    (fromfileLoop data size as pos (put b 0 (data.take pos)) = .ok none ∧ none ∈ as) ∨
    (fromfileLoop data size as pos (put b 0 (data.take pos)) = .error .hang ∧ none ∉ as) := by
  intro as
  induction as with
  | nil =>
    intro pos hp
    unfold fromfileLoop
    rw [if_pos (by omega)]
    exact Or.inr ⟨rfl, by simp⟩
  | cons a as ih =>
    intro pos hp
    unfold fromfileLoop
    rw [if_pos (by omega)]
    cases a with
    | none => exact Or.inl ⟨rfl, by simp⟩
    | some k =>
      have hc := chunk_le (size - pos)
      have e0 : (data.drop pos).take (chunk (size - pos)) = (data.drop pos).take (min (chunk (size - pos)) (data.length - pos)) := by
        rw [List.take_eq_take_iff]; simp
      obtain ⟨_, e2⟩ := take_step data pos (min (chunk (size - pos)) (data.length - pos)) k (by omega)
      simp only
      rw [e0, e2]
      unfold wrN
      rw [if_pos (by rw [e2, put_length (by rw [List.length_take]; omega)]; omega)]
      simp only [ok_bind]
      rw [put_grow _ _ _ _ _ (by omega) (by omega)]
      rcases ih (pos + min k (min (chunk (size - pos)) (data.length - pos))) (by omega) with ⟨h1, h2⟩ | ⟨h1, h2⟩
      · exact Or.inl ⟨h1, List.mem_cons_of_mem _ h2⟩
      · exact Or.inr ⟨h1, by simpa using h2⟩

theorem fromfileLoop_spec (data : List Byte) (size : Nat) (hd : size ≤ data.length) (b : List Byte) (hb : size ≤ b.length) :
    ∀ (as : List (Option Nat)) (pos : Nat), pos ≤ size →
    (fromfileLoop data size as pos (put b 0 (data.take pos)) = .ok (some (put b 0 (data.take size)))) ∨
    (fromfileLoop data size as pos (put b 0 (data.take pos)) = .ok none ∧ none ∈ as) ∨
    (fromfileLoop data size as pos (put b 0 (data.take pos)) = .error .hang ∧ none ∉ as ∧ useful as < size - pos) := by
  intro as
  induction as with
  | nil =>
    intro pos hp
    unfold fromfileLoop
    by_cases c : pos < size
    · rw [if_pos c]
      exact Or.inr (Or.inr ⟨rfl, by simp, by simp [useful]; omega⟩)
    · rw [if_neg c, show pos = size by omega]
      exact Or.inl rfl
  | cons a as ih =>
    intro pos hp
    unfold fromfileLoop
    by_cases c : pos < size
    · rw [if_pos c]
      cases a with
      | none => exact Or.inr (Or.inl ⟨rfl, by simp⟩)
      | some k =>
        have hc := chunk_le (size - pos)
        have hc' := chunk_pos (size - pos) (by omega)
        obtain ⟨_, e2⟩ := take_step data pos (chunk (size - pos)) k (by omega)
        simp only
        rw [e2]
        unfold wrN
        rw [if_pos (by rw [e2, put_length (by rw [List.length_take]; omega)]; omega)]
        simp only [ok_bind]
        rw [put_grow _ _ _ _ _ (by omega) (by omega)]
        rcases ih (pos + min k (chunk (size - pos))) (by omega) with h1 | ⟨h1, h2⟩ | ⟨h1, h2, h3⟩
        · exact Or.inl h1
        · exact Or.inr (Or.inl ⟨h1, List.mem_cons_of_mem _ h2⟩)
        · refine Or.inr (Or.inr ⟨h1, by simpa using h2, ?_⟩)
          rcases Nat.eq_zero_or_pos k with rfl | hk
          · rw [useful_cons_zero]; omega
          · rw [useful_cons_pos k hk]; omega
    · rw [if_neg c, show pos = size by omega]
      exact Or.inl rfl

/-! ### Lists -/

theorem writeAll_full (file x : List Byte) (k : Nat) (h : x.length ≤ k) : writeAll file x (some k) = (file ++ x, true) := by
  unfold writeAll
  simp only
  rw [List.take_of_length_le h]
  simp

theorem writeAll_short (file x : List Byte) (k : Nat) (h : k < x.length) : writeAll file x (some k) = (file ++ x.take k, false) := by
  unfold writeAll
  simp only
  congr 1
  rw [decide_eq_false]
  rw [List.length_take]; omega

theorem listLoop_spec {l : List SP} {ss : List (List Byte)} (h : HoldsAll l ss) (answers : Nat → Option Nat) : ∀ (i : Nat) (file : List Byte),
    (listLoop answers i l file = .ok (file ++ joined ss, 1) ∧ AllAccepted answers i ss) ∨
    (∃ t, listLoop answers i l file = .ok (file ++ t, 0) ∧ t <+: joined ss ∧ t ≠ joined ss ∧ ¬ AllAccepted answers i ss) := by
  induction h with
  | nil => intro i file; exact Or.inl ⟨by simp [listLoop, joined], trivial⟩
  | @cons p s l ss hp _ ih =>
    intro i file
    obtain ⟨hs, tl, hp⟩ := hp
    have e : rdN p.buf 0 p.size = .ok s := by
      rw [hs, ← hp]; exact rdN_mid (A := []) rfl rfl
    have ej : joined (s :: ss) = s ++ [ch '\n'] ++ joined ss := rfl
    have hne : s ≠ joined (s :: ss) := by
      rw [ej]; intro h
      have := congrArg List.length h
      simp at this
    have hpre : s <+: joined (s :: ss) := by rw [ej]; exact ⟨_, (List.append_assoc ..).symm⟩
    unfold listLoop
    rw [e]
    simp only [ok_bind]
    cases ha : answers i with
    | none =>
      refine Or.inr ⟨[], by simp [writeAll], List.nil_prefix, by rw [ej]; simp, ?_⟩
      rintro ⟨⟨k, h1, _⟩, _⟩
      rw [ha] at h1; simp at h1
    | some k =>
      by_cases hk : s.length ≤ k
      · rw [writeAll_full _ _ _ hk]
        simp only [Bool.not_true, Bool.false_eq_true, if_false]
        cases hb : answers (i + 1) with
        | none =>
          refine Or.inr ⟨s, rfl, hpre, hne, ?_⟩
          rintro ⟨_, ⟨k, h1, _⟩, _⟩
          rw [hb] at h1; simp at h1
        | some k2 =>
          rcases Nat.eq_zero_or_pos k2 with rfl | hk2
          · rw [writeAll_short _ _ _ (by simp)]
            refine Or.inr ⟨s, by simp, hpre, hne, ?_⟩
            rintro ⟨_, ⟨k, h1, h2⟩, _⟩
            rw [hb] at h1; simp at h1; omega
          · rw [writeAll_full _ [ch '\n'] k2 hk2]
            simp only [Bool.not_true, Bool.false_eq_true, if_false]
            rcases ih (i + 2) (file ++ s ++ [ch '\n']) with ⟨h1, h2⟩ | ⟨t, h1, h2, h3, h4⟩
            · left
              refine ⟨by rw [h1, ej]; simp, ⟨k, ha, hk⟩, ⟨k2, hb, hk2⟩, h2⟩
            · right
              refine ⟨s ++ [ch '\n'] ++ t, by rw [h1]; simp, ?_, ?_, fun h => h4 h.2.2⟩
              · rw [ej]; exact (List.prefix_append_right_inj _).2 h2
              · rw [ej]; intro h; exact h3 (List.append_cancel_left h)
      · rw [writeAll_short _ _ _ (by omega)]
        refine Or.inr ⟨s.take k, by simp, (List.take_prefix k s).trans hpre, ?_, ?_⟩
        · intro h
          have := congrArg List.length h
          rw [ej, List.length_take] at this; simp at this; omega
        · rintro ⟨⟨k', h1, h2⟩, _⟩
          rw [ha] at h1; injection h1 with h1; omega

end Ulz.Wholefile

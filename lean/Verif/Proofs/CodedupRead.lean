import Verif.Proofs.CodedupSearch
/-! The reading of codedup. -/
namespace Ulz.Codedup
open Spec

/-- The hash of a string. -/
def hashOf : List Byte → BitVec 64 → BitVec 32
  | [], h => (h &&& 0xfffffff).truncate 32
  | c :: s, h => hashOf s ((16 * h + c.signExtend 64) ^^^ ((16 * h + c.signExtend 64) >>> 24 &&& 0xf0))

theorem hashLoop_spec : ∀ (s junk : List Byte) (h : BitVec 64), 0 ∉ s → hashLoop (s ++ 0 :: junk) h = .ok (hashOf s h)
  | [], _, _, _ => by simp [hashLoop, hashOf]
  | c :: s, junk, h, h0 => by
    rw [List.mem_cons, not_or] at h0
    rw [List.cons_append, hashLoop, if_neg (Ne.symm h0.1)]
    exact hashLoop_spec s junk _ h0.2

theorem lineOf_nl : ∀ (n : Nat) (l f : List Byte), l.length < n → ch '\n' ∉ l →
    lineOf n (l ++ ch '\n' :: f) = l ++ [ch '\n']
  | 0, _, _, h, _ => absurd h (by omega)
  | n + 1, [], f, _, _ => by simp [lineOf]
  | n + 1, c :: l, f, h, hn => by
    rw [List.mem_cons, not_or] at hn
    rw [List.cons_append, lineOf, if_neg (Ne.symm hn.1), lineOf_nl n l f (by simpa using h) hn.2]
    rfl

theorem lineOf_end : ∀ (n : Nat) (l : List Byte), l.length ≤ n → ch '\n' ∉ l → lineOf n l = l
  | 0, l, h, _ => by
    cases l with
    | nil => rfl
    | cons => simp at h
  | n + 1, [], _, _ => rfl
  | n + 1, c :: l, h, hn => by
    rw [List.mem_cons, not_or] at hn
    rw [lineOf, if_neg (Ne.symm hn.1), lineOf_end n l (by simpa using h) hn.2]

theorem rchr_none : ∀ (l junk : List Byte), 0 ∉ l → ch '\n' ∉ l → rchr (l ++ 0 :: junk) = .ok none
  | [], _, _, _ => by simp [rchr]
  | c :: l, junk, h0, hn => by
    rw [List.mem_cons, not_or] at h0 hn
    rw [List.cons_append, rchr, if_neg (Ne.symm h0.1), rchr_none l junk h0.2 hn.2]
    simp only [ok_bind, pure_eq_ok]
    rw [if_neg (Ne.symm hn.1)]

theorem rchr_nl : ∀ (l junk : List Byte), 0 ∉ l → ch '\n' ∉ l →
    rchr (l ++ ch '\n' :: 0 :: junk) = .ok (some l.length)
  | [], junk, _, _ => by
    rw [List.nil_append, rchr, if_neg (by decide), rchr, if_pos rfl]
    rfl
  | c :: l, junk, h0, hn => by
    rw [List.mem_cons, not_or] at h0 hn
    rw [List.cons_append, rchr, if_neg (Ne.symm h0.1), rchr_nl l junk h0.2 hn.2]
    rfl

theorem isspace_spec : ∀ c : Byte, isspace c.toInt =
    if 128 ≤ c.toNat ∧ c.toNat < 255 then .error .oobRead else .ok (space c) := by
  intro c
  unfold isspace space
  have h := c.isLt
  have hi : c.toInt = if c.toNat < 128 then (c.toNat : Int) else (c.toNat : Int) - 256 := by
    rw [BitVec.toInt_eq_toNat_cond]
    split <;> split <;> omega
  have hs : (c = ch ' ') ↔ c.toNat = 32 := by
    constructor
    · rintro rfl; rfl
    · intro h; exact BitVec.eq_of_toNat_eq h
  by_cases hb : 128 ≤ c.toNat ∧ c.toNat < 255
  · rw [if_pos hb, if_pos]
    rw [hi, if_neg (by omega)]; omega
  · rw [if_neg hb, if_neg]
    · rw [pure_eq_ok]
      congr 1
      rw [decide_eq_decide, hs, hi]
      split <;> omega
    · rw [hi]; split <;> omega

theorem skipSpace_spec : ∀ (l junk : List Byte), 0 ∉ l → skipSpace (l ++ 0 :: junk) =
    open Classical in if Bad true l then .error .oobRead else .ok (l.dropWhile space ++ 0 :: junk) := by
  intro l junk h0
  classical
  induction l with
  | nil =>
    have hb : ¬ Bad true [] := by rintro ⟨_, c, r, h, _⟩; simp at h
    rw [if_neg hb]
    simp [skipSpace, isspace]
  | cons c l ih =>
    rw [List.mem_cons, not_or] at h0
    rw [List.cons_append, skipSpace, isspace_spec]
    by_cases hc : 128 ≤ c.toNat ∧ c.toNat < 255
    · have hsp : space c = false := by
        unfold space
        have : c ≠ ch ' ' := by rintro rfl; revert hc; decide
        simp [this]; omega
      have hb : Bad true (c :: l) := ⟨rfl, c, l, by rw [List.dropWhile_cons, hsp]; rfl, hc⟩
      rw [if_pos hc, if_pos hb]; rfl
    · rw [if_neg hc]
      simp only [ok_bind, pure_eq_ok]
      by_cases hs : space c = true
      · have hbb : Bad true (c :: l) ↔ Bad true l := by
          unfold Bad; rw [List.dropWhile_cons, if_pos hs]
        rw [if_pos hs, ih h0.2, List.dropWhile_cons, if_pos hs]
        by_cases hb : Bad true l
        · rw [if_pos hb, if_pos (hbb.2 hb)]
        · rw [if_neg hb, if_neg (fun h => hb (hbb.1 h))]
      · have hb : ¬ Bad true (c :: l) := by
          rintro ⟨_, d, r, h, hd⟩
          rw [List.dropWhile_cons, if_neg hs] at h
          obtain ⟨rfl, _⟩ := List.cons.inj h
          exact hc hd
        rw [if_neg hs, if_neg hb, List.dropWhile_cons, if_neg hs, List.cons_append]

/-- The string up to its first zero byte. -/
def cut (l : List Byte) : List Byte := l.takeWhile (· ≠ 0)

theorem cut_no_zero (l : List Byte) : 0 ∉ cut l := by
  intro h
  have := List.all_takeWhile (p := fun x : Byte => decide (x ≠ 0)) (l := l)
  rw [List.all_eq_true] at this
  have := this 0 h
  simp at this

theorem cut_split (l : List Byte) : cut l = l ∧ 0 ∉ l ∨ ∃ r, l = cut l ++ 0 :: r := by
  induction l with
  | nil => exact .inl ⟨rfl, by simp⟩
  | cons c l ih =>
    unfold cut
    by_cases hc : c = 0
    · exact .inr ⟨l, by subst hc; simp⟩
    · rw [List.takeWhile_cons, if_pos (by simpa using hc)]
      rcases ih with ⟨h1, h2⟩ | ⟨r, h⟩
      · refine .inl ⟨by unfold cut at h1; rw [h1], ?_⟩
        exact fun h => (List.mem_cons.1 h).elim (fun h => hc h.symm) h2
      · exact .inr ⟨r, by rw [List.cons_append]; unfold cut at h; rw [← h]⟩

theorem text_cut (w : Bool) (l : List Byte) : text w l = if w then (cut l).dropWhile space else cut l := rfl

theorem space_zero : space 0 = false := by decide

theorem bad_cut (w : Bool) (l : List Byte) : Bad w (cut l) ↔ Bad w l := by
  unfold Bad
  refine and_congr_right fun _ => ?_
  rcases cut_split l with ⟨h, _⟩ | ⟨r, h⟩
  · rw [h]
  · generalize cut l = a at h
    rw [h]
    clear h
    induction a with
    | nil =>
      rw [List.nil_append, List.dropWhile_cons, space_zero]
      constructor
      · rintro ⟨c, rest, h, _⟩; simp at h
      · rintro ⟨c, rest, h, h2, _⟩
        simp only [Bool.false_eq_true, if_false] at h
        obtain ⟨rfl, _⟩ := List.cons.inj h
        simp at h2
    | cons c a ih =>
      rw [List.cons_append, List.dropWhile_cons, List.dropWhile_cons]
      by_cases hs : space c = true
      · rw [if_pos hs, if_pos hs]; exact ih
      · rw [if_neg hs, if_neg hs]
        constructor
        · rintro ⟨d, rest, h, hd⟩
          obtain ⟨rfl, _⟩ := List.cons.inj h
          exact ⟨_, _, rfl, hd⟩
        · rintro ⟨d, rest, h, hd⟩
          obtain ⟨rfl, _⟩ := List.cons.inj h
          exact ⟨_, _, rfl, hd⟩

/-- After the removal of the newline. -/
theorem finish_spec (w : Bool) (l junk : List Byte) :
    (do let p ← if w then skipSpace (cut l ++ 0 :: junk) else pure (cut l ++ 0 :: junk)
        let hash ← string_hash p
        let n ← Hex.strlen p
        pure (hash, p.take n) : C (BitVec 32 × List Byte)) =
      open Classical in if Bad w l then .error .oobRead else .ok (hashOf (text w l) 0, text w l) := by
  have h0 := cut_no_zero l
  have fin : ∀ t junk : List Byte, 0 ∉ t → (do
        let hash ← string_hash (t ++ 0 :: junk)
        let n ← Hex.strlen (t ++ 0 :: junk)
        pure (hash, (t ++ 0 :: junk).take n) : C (BitVec 32 × List Byte)) = .ok (hashOf t 0, t) := by
    intro t junk ht
    rw [string_hash, hashLoop_spec t junk 0 ht, Hex.strlen_cstr t junk ht]
    simp
  cases w with
  | false =>
    have hb : ¬ Bad false l := by rintro ⟨h, _⟩; simp at h
    rw [if_neg hb]
    exact fin (cut l) junk h0
  | true =>
    rw [if_pos rfl, skipSpace_spec (cut l) junk h0]
    by_cases hb : Bad true l
    · rw [if_pos ((bad_cut true l).2 hb), if_pos hb]; rfl
    · rw [if_neg (fun h => hb ((bad_cut true l).1 h)), if_neg hb]
      exact fin ((cut l).dropWhile space) junk (fun h => h0 ((List.dropWhile_suffix _).subset h))

theorem prepare_end (w : Bool) (l junk : List Byte) (hn : ch '\n' ∉ l) : prepare w l junk =
      open Classical in if Bad w l then .error .oobRead else .ok (hashOf (text w l) 0, text w l) := by
  unfold prepare
  have hn' : ch '\n' ∉ cut l := fun h => hn ((List.takeWhile_prefix _).subset h)
  obtain ⟨j', hj⟩ : ∃ j', l ++ 0 :: junk = cut l ++ 0 :: j' := by
    rcases cut_split l with ⟨h, _⟩ | ⟨r, h⟩
    · exact ⟨junk, by rw [h]⟩
    · refine ⟨r ++ 0 :: junk, ?_⟩
      generalize cut l = a at h
      rw [h]; simp
  rw [← finish_spec w l j']
  simp only [hj, rchr_none (cut l) j' (cut_no_zero l) hn', ok_bind, pure_eq_ok]

theorem prepare_nl (w : Bool) (l junk : List Byte) (hn : ch '\n' ∉ l) : prepare w (l ++ [ch '\n']) junk =
      open Classical in if Bad w l then .error .oobRead else .ok (hashOf (text w l) 0, text w l) := by
  unfold prepare
  have hn' : ch '\n' ∉ cut l := fun h => hn ((List.takeWhile_prefix _).subset h)
  rcases cut_split l with ⟨h, h0⟩ | ⟨r, h⟩
  · rw [← finish_spec w l (0 :: junk), h]
    have e : l ++ [ch '\n'] ++ 0 :: junk = l ++ ch '\n' :: 0 :: junk := by simp
    have hw : wr (l ++ ch '\n' :: 0 :: junk) l.length 0 = .ok (l ++ 0 :: 0 :: junk) := by
      unfold wr
      rw [if_pos (by simp)]
      simp
    simp only [e, rchr_nl l junk h0 hn, ok_bind, pure_eq_ok, hw]
  · have e : l ++ [ch '\n'] ++ 0 :: junk = cut l ++ 0 :: (r ++ ch '\n' :: 0 :: junk) := by
      generalize cut l = a at h
      rw [h]; simp
    rw [← finish_spec w l (r ++ ch '\n' :: 0 :: junk)]
    simp only [e, rchr_none (cut l) _ (cut_no_zero l) hn', ok_bind, pure_eq_ok]

theorem lineOf_full : ∀ (n : Nat) (l f : List Byte), l.length = n → ch '\n' ∉ l → lineOf n (l ++ f) = l
  | 0, l, f, h, _ => by rw [List.length_eq_zero_iff.1 h, lineOf]
  | n + 1, [], f, h, _ => by simp at h
  | n + 1, c :: l, f, h, hn => by
    rw [List.mem_cons, not_or] at hn
    rw [List.cons_append, lineOf, if_neg (Ne.symm hn.1), lineOf_full n l f (by simpa using h) hn.2]

theorem used_cons_skip {start : Nat} {stop : Option Nat} {l : List Byte} {K : List (List Byte)} {i : Nat} (h : i < start) :
    used (start - i) (stop.map (· - i)) (l :: K) = used (start - (i + 1)) (stop.map (· - (i + 1))) K := by
  have hs : start - i = (start - (i + 1)) + 1 := by omega
  cases stop with
  | none => simp only [used, Option.map_none]; rw [hs, List.drop_succ_cons]
  | some e =>
    simp only [used, Option.map_some]
    rw [hs]
    by_cases he : e - i - 1 = 0
    · rw [he, show e - (i + 1) - 1 = 0 by omega]; simp
    · rw [show e - i - 1 = (e - (i + 1) - 1) + 1 by omega, List.take_succ_cons, List.drop_succ_cons]

/-- Reading: the text of each line that is used, with its hash, or the invalid call of `isspace`. -/
theorem readLoop_spec (w : Bool) (start : Nat) (stop : Option Nat) (junk : List Byte) : ∀ (K : List (List Byte)) (fuel i : Nat)
    (f : List Byte), f.length < fuel → Lines f K →
    readLoop w start stop junk fuel i f = open Classical in
      if ∃ l ∈ used (start - i) (stop.map (· - i)) K, Bad w l then .error .oobRead
      else .ok ((used (start - i) (stop.map (· - i)) K).map (fun l => (hashOf (text w l) 0, text w l)))
  | _, 0, _, _, hf, _ => absurd hf (by omega)
  | [], fuel + 1, i, f, hf, hl => by
    rw [show f = [] from hl, readLoop, if_pos rfl]
    have hu : used (start - i) (stop.map (· - i)) [] = [] := by cases stop <;> simp [used]
    rw [hu]; simp
  | l :: K, fuel + 1, i, f, hf, hl => by
    obtain ⟨hn, hl⟩ := hl
    -- what is read and what is left
    obtain ⟨line, f', hline, hdrop, hpos, hl', hprep⟩ : ∃ line f', lineOf 1023 f = line ∧ f.drop line.length = f' ∧
        f'.length < f.length ∧ Lines f' K ∧ (∀ junk, prepare w line junk = open Classical in
          if Bad w l then .error .oobRead else .ok (hashOf (text w l) 0, text w l)) := by
      rcases hl with ⟨hlen, f', rfl, hl'⟩ | ⟨hlen, f', rfl, hl'⟩ | ⟨hlen, hne, rfl, rfl⟩
      · refine ⟨l ++ [ch '\n'], f', ?_, ?_, by simp; omega, hl', fun j => prepare_nl w l j hn⟩
        · rw [List.append_assoc]; exact lineOf_nl 1023 l f' (by omega) hn
        · exact List.drop_left
      · exact ⟨l, f', lineOf_full 1023 l f' hlen hn, List.drop_left, by simp; omega, hl', fun j => prepare_end w l j hn⟩
      · exact ⟨f, [], lineOf_end 1023 f (by omega) hn, by simp, List.length_pos_iff.2 hne, rfl,
          fun j => prepare_end w f j hn⟩
    have hfne : f ≠ [] := by rintro rfl; simp at hpos
    have ih := readLoop_spec w start stop junk K fuel (i + 1) f' (by omega) hl'
    rw [readLoop, if_neg hfne]
    simp only [hline, hdrop, Nat.add_sub_cancel]
    by_cases hs : i < start
    · rw [if_pos hs, ih, used_cons_skip hs]
    · rw [if_neg hs]
      have hs0 : start - i = 0 := by omega
      have hs1 : start - (i + 1) = 0 := by omega
      by_cases hstop : stop.any (fun e => i + 1 ≥ e) = true
      · rw [if_pos hstop]
        cases stop with
        | none => simp at hstop
        | some e =>
          simp only [Option.any_some, decide_eq_true_eq] at hstop
          have hu : used (start - i) ((some e).map (· - i)) (l :: K) = [] := by
            simp only [used, Option.map_some]
            rw [show e - i - 1 = 0 by omega]; simp
          rw [hu]; simp
      · rw [if_neg hstop]
        have hu : used (start - i) (stop.map (· - i)) (l :: K) = l :: used (start - (i + 1)) (stop.map (· - (i + 1))) K := by
          rw [hs0, hs1]
          cases stop with
          | none => simp [used]
          | some e =>
            simp only [Option.any_some, decide_eq_true_eq] at hstop
            simp only [used, Option.map_some, List.drop_zero]
            rw [show e - i - 1 = (e - (i + 1) - 1) + 1 by omega, List.take_succ_cons]
        rw [hprep, hu]
        classical
        by_cases hb : Bad w l
        · rw [if_pos hb, if_pos ⟨l, by simp, hb⟩]; rfl
        · rw [if_neg hb]
          simp only [ok_bind]
          rw [ih]
          by_cases hb' : ∃ l ∈ used (start - (i + 1)) (stop.map (· - (i + 1))) K, Bad w l
          · obtain ⟨x, hx, hxb⟩ := hb'
            rw [if_pos ⟨x, hx, hxb⟩, if_pos ⟨x, by simp [hx], hxb⟩]; rfl
          · rw [if_neg hb', if_neg]
            · rfl
            · rintro ⟨x, hx, hxb⟩
              rcases List.mem_cons.1 hx with rfl | hx
              · exact hb hxb
              · exact hb' ⟨x, hx, hxb⟩

/-- Reading from the start of the file. -/
theorem read_spec (w : Bool) (start : Nat) (stop : Option Nat) (junk : List Byte) {f : List Byte} {K : List (List Byte)}
    (hl : Lines f K) : readLoop w start stop junk (f.length + 1) 0 f = open Classical in
      if ∃ l ∈ used start stop K, Bad w l then .error .oobRead
      else .ok ((used start stop K).map (fun l => (hashOf (text w l) 0, text w l))) := by
  have := readLoop_spec w start stop junk K (f.length + 1) 0 f (by omega) hl
  have e : stop.map (· - 0) = stop := by cases stop <;> simp
  rw [e] at this
  exact this

theorem hashed_map (w : Bool) (K : List (List Byte)) :
    Hashed (K.map (fun l => (hashOf (text w l) 0, text w l))) := by
  refine ⟨fun t => hashOf t 0, fun x hx => ?_⟩
  obtain ⟨l, _, rfl⟩ := List.mem_map.1 hx
  rfl

theorem texts_map (w : Bool) (K : List (List Byte)) :
    texts (K.map (fun l => (hashOf (text w l) 0, text w l))) = K.map (text w) := by
  simp [texts]

theorem first_nl : ∀ {a : List Byte}, ch '\n' ∈ a → ∃ l r, a = l ++ ch '\n' :: r ∧ ch '\n' ∉ l
  | c :: a, h => by
    by_cases hc : c = ch '\n'
    · exact ⟨[], a, by rw [hc]; rfl, by simp⟩
    · obtain ⟨l, r, h1, h2⟩ := first_nl ((List.mem_cons.1 h).resolve_left (Ne.symm hc))
      exact ⟨c :: l, r, by rw [h1]; rfl, fun h => (List.mem_cons.1 h).elim (fun h => hc h.symm) h2⟩

/-- Every file has lines. -/
theorem lines_exist : ∀ (n : Nat) (f : List Byte), f.length < n → ∃ L, Lines f L
  | 0, _, h => absurd h (by omega)
  | n + 1, f, h => by
    by_cases hf : f = []
    · exact ⟨[], hf⟩
    have hpos := List.length_pos_iff.2 hf
    have hsplit : f.take 1023 ++ f.drop 1023 = f := List.take_append_drop ..
    by_cases hn : ch '\n' ∈ f.take 1023
    · obtain ⟨l, r, hlr, hl⟩ : ∃ l r, f.take 1023 = l ++ ch '\n' :: r ∧ ch '\n' ∉ l := first_nl hn
      have hlen : l.length ≤ 1022 := by
        have := congrArg List.length hlr
        simp at this; omega
      have hfe : f = l ++ bytes! "\n" ++ (r ++ f.drop 1023) := by
        have := hsplit
        rw [hlr] at this
        generalize f.drop 1023 = z at this ⊢
        rw [← this, List.append_assoc, List.append_assoc]
        rfl
      obtain ⟨K, hK⟩ := lines_exist n (r ++ f.drop 1023) (by
        have := congrArg List.length hfe
        simp at this ⊢; omega)
      exact ⟨l :: K, hl, .inl ⟨hlen, _, hfe, hK⟩⟩
    · by_cases hlong : 1023 ≤ f.length
      · obtain ⟨K, hK⟩ := lines_exist n (f.drop 1023) (by simp; omega)
        exact ⟨f.take 1023 :: K, hn, .inr (.inl ⟨by simp; omega, _, hsplit.symm, hK⟩)⟩
      · rw [List.take_of_length_le (by omega)] at hn
        exact ⟨[f], hn, .inr (.inr ⟨by omega, hf, rfl, rfl⟩)⟩

/-! ### Minimal length zero -/

theorem iLoop_hang {ls : Ls} (hh : Hashed ls) : ∀ (fuel i : Nat) (m : Map), i < ls.length →
    iLoop ls 0 fuel i m = .error .hang
  | 0, _, _, _ => rfl
  | fuel + 1, i, m, hi => by
    unfold iLoop
    rw [if_pos hi]
    obtain ⟨E, q1, q2, _, q4⟩ := jLoop_spec hh 0 i (ls.length + 1) (i + 0) m 0 0 (Nat.le_refl _) (by omega)
    have hne : E ≠ [] := by
      rintro rfl
      rcases q4 i (Nat.le_refl _) hi with ⟨x, hx, _⟩ | h | ⟨j0, h0, z1, z2, _⟩
      · simp at hx
      · exact h (fun k hk => by omega)
      · omega
    have hlt : i + longestOf E 0 < ls.length := by
      rcases (longestOf_le E 0).2.2 with h | ⟨x, hx, h⟩
      · omega
      · obtain ⟨_, a, _, b⟩ := q2 x hx
        have := b.1.1
        omega
    rw [q1]
    simp only [ok_bind]
    rw [if_pos (by have := List.length_pos_iff.2 hne; omega)]
    exact iLoop_hang hh fuel _ _ hlt

/-! ### Steps -/

theorem jLoop_done {ls : Ls} {bl i fuel j : Nat} {m : Map} {c lg : Nat} (h : ls.length ≤ j + bl) :
    jLoop ls bl i (fuel + 1) j m c lg = .ok (m, c, lg) := by
  rw [jLoop, if_neg (by omega)]; rfl

theorem jLoop_skip {ls : Ls} {bl i fuel j h : Nat} {m : Map} {c lg : Nat} (hj : j + bl < ls.length)
    (hm : matchLoop ls i j bl 0 = .ok h) (hb : h ≠ bl) (h0 : h ≠ 0) :
    jLoop ls bl i (fuel + 1) j m c lg = jLoop ls bl i fuel (j + h) m c lg := by
  rw [jLoop, if_pos hj, hm]
  simp only [ok_bind]
  rw [if_neg hb, if_pos h0]

theorem iLoop_none {ls : Ls} {bl : Nat} {m : Map} (h : ∀ i < ls.length, jLoop ls bl i (ls.length + 1) (i + bl) m 0 0 = .ok (m, 0, 0)) :
    ∀ fuel i, ls.length - i < fuel → iLoop ls bl fuel i m = .ok m
  | 0, i, hf => by omega
  | fuel + 1, i, hf => by
    rw [iLoop]
    by_cases hi : i < ls.length
    · rw [if_pos hi, h i hi]
      exact iLoop_none h fuel (i + 1) (by omega)
    · rw [if_neg hi]; rfl

theorem skip_none {a b y : List Byte} {ha hb hy : BitVec 32} (hab : a ≠ b) {fuel : Nat} (hf : 8 < fuel) :
    iLoop [(ha, a), (ha, a), (hb, b), (ha, a), (ha, a), (ha, a), (hb, b), (hy, y)] 3 fuel 0 [] = .ok [] := by
  refine iLoop_none ?_ fuel 0 (by simpa using hf)
  have hba := hab.symm
  generalize hls : [(ha, a), (ha, a), (hb, b), (ha, a), (ha, a), (ha, a), (hb, b), (hy, y)] = ls
  have hlen : ls.length = 8 := by rw [← hls]; rfl
  have h1 : matchLoop ls 0 3 3 0 = .ok 2 := by rw [← hls]; simp [matchLoop, line_equal, at', hba]
  have h2 : matchLoop ls 1 4 3 0 = .ok 1 := by rw [← hls]; simp [matchLoop, line_equal, at', hba]
  intro i hi
  rw [hlen]
  rcases i with _ | _ | i
  · rw [jLoop_skip (by omega) h1 (by omega) (by omega), jLoop_done (by omega)]
  · rw [jLoop_skip (by omega) h2 (by omega) (by omega), jLoop_done (by omega)]
  · rw [jLoop_done (by omega)]

end Ulz.Codedup

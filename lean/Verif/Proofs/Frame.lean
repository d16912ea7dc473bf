import Verif.Proofs.Base64
import Verif.Proofs.Fileparser
import Verif.Proofs.Psp
/-! Lemmas: a run that stays within a buffer does the same with a longer buffer and leaves the rest of it alone. -/
namespace Ulz.Frame

theorem bind_ok {α β : Type} {x : C α} {f : α → C β} {r : β} : (x >>= f) = .ok r ↔ ∃ y, x = .ok y ∧ f y = .ok r := by
  cases x with
  | error e => exact ⟨fun h => (nomatch h), fun ⟨_, h, _⟩ => (nomatch h)⟩
  | ok y => exact ⟨fun h => ⟨y, rfl, h⟩, fun ⟨_, h, h'⟩ => by cases h; exact h'⟩

theorem rd_more {a b : List Byte} {i : Nat} {v : Byte} (h : rd a i = .ok v) : rd (a ++ b) i = .ok v := by
  unfold rd at h ⊢
  by_cases hi : i < a.length
  · rw [List.getElem?_append_left hi]; exact h
  · rw [List.getElem?_eq_none (by omega)] at h; cases h

theorem wr_more {a a' b : List Byte} {i : Nat} {v : Byte} (h : wr a i v = .ok a') : wr (a ++ b) i v = .ok (a' ++ b) := by
  unfold wr at h ⊢
  by_cases hi : i < a.length
  · rw [if_pos hi] at h
    cases h
    rw [if_pos (by simp; omega), List.set_append_left _ _ hi]
  · rw [if_neg hi] at h; cases h

theorem wrN_more {a a' b x : List Byte} {i : Nat} (h : wrN a i x = .ok a') : wrN (a ++ b) i x = .ok (a' ++ b) := by
  unfold wrN at h ⊢
  split at h
  · rename_i hi
    cases h
    rw [if_pos (by simp; omega)]
    unfold put
    rw [List.take_append_of_le_length (by omega), List.drop_append_of_le_length (by omega)]
    simp
  · cases h

/-! ### base64 -/

section
open Base64

theorem emit_more {a a' b : List Byte} {d n i : Nat} (h : emit a d n i = .ok a') : emit (a ++ b) d n i = .ok (a' ++ b) := by
  unfold emit at h ⊢
  obtain ⟨c0, e0, h⟩ := bind_ok.1 h
  obtain ⟨a1, w1, h⟩ := bind_ok.1 h
  obtain ⟨c1, e1, h⟩ := bind_ok.1 h
  obtain ⟨a2, w2, h⟩ := bind_ok.1 h
  rw [e0, ok_bind, wr_more w1, ok_bind, e1, ok_bind, wr_more w2, ok_bind]
  have key : ∀ {x : C Byte} {a a' : List Byte}, (do let c ← x; wr a (d+3) c) = .ok a' → (do let c ← x; wr (a ++ b) (d+3) c) = .ok (a' ++ b) := by
    intro x a a' h
    obtain ⟨c, e, h⟩ := bind_ok.1 h
    rw [e, ok_bind, wr_more h]
  have key2 : ∀ {x : C Byte} {a a' : List Byte}, (do
      let c ← x
      let a ← wr a (d+2) c
      if i = 2 then do wr a (d+3) (← rd tbl (n &&& 0x3f)) else do wr a (d+3) (← pure (ch '='))) = .ok a' → (do
      let c ← x
      let a ← wr (a ++ b) (d+2) c
      if i = 2 then do wr a (d+3) (← rd tbl (n &&& 0x3f)) else do wr a (d+3) (← pure (ch '='))) = .ok (a' ++ b) := by
    intro x a a' h
    obtain ⟨c, e, h⟩ := bind_ok.1 h
    obtain ⟨a1, w, h⟩ := bind_ok.1 h
    rw [e, ok_bind, wr_more w, ok_bind]
    split at h
    · rename_i h1; rw [if_pos h1]; exact key h
    · rename_i h1; rw [if_neg h1]; exact key h
  simp only at h ⊢
  by_cases h1 : i ≠ 0
  · rw [if_pos h1] at h ⊢; exact key2 h
  · rw [if_neg h1] at h ⊢; exact key2 h

theorem encStr_more (b : List Byte) : ∀ n (s : List Byte), s.length ≤ n → ∀ (a : List Byte) d l r, encStrLoop a d l s = .ok r →
    encStrLoop (a ++ b) d l s = .ok (r.1 ++ b, r.2) := by
  intro n
  induction n with
  | zero =>
    intro s hs a d l r h
    rw [List.length_eq_zero_iff.1 (Nat.le_zero.1 hs), encStrLoop] at h
    cases h
  | succ n ih =>
    intro s hs a d l r h
    match s, hs with
    | [], _ => rw [encStrLoop] at h; cases h
    | x :: s, hs =>
      rw [encStrLoop.eq_def] at h ⊢
      simp only at h ⊢
      split at h
      · rename_i hx
        rw [if_pos hx]
        match s, hs with
        | [], _ => cases h
        | y :: s, hs =>
          simp only at h ⊢
          split at h
          · rename_i hy
            rw [if_pos hy]
            match s, hs with
            | [], _ => cases h
            | z :: s, hs =>
              simp only at h ⊢
              simp only [List.length_cons] at hs
              split at h
              · rename_i hz
                rw [if_pos hz]
                obtain ⟨a1, e1, e2⟩ := bind_ok.1 h
                rw [emit_more e1, ok_bind]
                exact ih _ (by omega) _ _ _ _ e2
              · rename_i hz
                rw [if_neg hz]
                obtain ⟨a1, e1, e2⟩ := bind_ok.1 h
                rw [emit_more e1, ok_bind]
                exact ih _ (by simp; omega) _ _ _ _ e2
          · rename_i hy
            rw [if_neg hy]
            simp only [List.length_cons] at hs
            obtain ⟨a1, e1, e2⟩ := bind_ok.1 h
            rw [emit_more e1, ok_bind]
            exact ih _ (by simp; omega) _ _ _ _ e2
      · rename_i hx
        rw [if_neg hx]
        split at h
        · rename_i hl
          rw [if_pos hl]
          obtain ⟨a1, e1, e2⟩ := bind_ok.1 h
          rw [wr_more e1, ok_bind]
          cases e2; rfl
        · rename_i hl
          rw [if_neg hl]
          cases h; rfl

/-- The decoder's variables with a longer buffer. -/
def ext (st : Dec) (b : List Byte) : Dec := { st with dst := st.dst ++ b }

theorem push_more {st st' : Dec} {p : Nat} {s : Bool} (b : List Byte) (h : decPush st p = .ok (st', s)) :
    decPush (ext st b) p = .ok (ext st' b, s) := by
  unfold decPush at h ⊢
  simp only at h ⊢
  split at h
  · cases h
  · rename_i h1
    rw [if_neg (show ¬(ext st b).cnt = 2^31 - 1 from h1)]
    split at h
    · rename_i h2
      rw [if_pos (show ((ext st b).cnt + 1) % 4 = 0 from h2)]
      split at h
      · rename_i h3
        rw [if_pos (show (ext st b).l < 3 from h3)]
        cases h; rfl
      · rename_i h3
        rw [if_neg (show ¬(ext st b).l < 3 from h3)]
        simp only [bind_ok] at h
        obtain ⟨a1, w1, a2, w2, a3, w3, e⟩ := h
        rw [show wr (ext st b).dst (ext st b).d (BitVec.ofNat 8 (((ext st b).n <<< 6 ||| p) >>> 16)) = _ from wr_more w1, ok_bind,
          show wr (a1 ++ b) ((ext st b).d + 1) (BitVec.ofNat 8 (((ext st b).n <<< 6 ||| p) >>> 8 &&& 0xff)) = _ from wr_more w2, ok_bind,
          show wr (a2 ++ b) ((ext st b).d + 2) (BitVec.ofNat 8 (((ext st b).n <<< 6 ||| p) &&& 0xff)) = _ from wr_more w3, ok_bind]
        cases e; rfl
    · rename_i h2
      rw [if_neg (show ¬((ext st b).cnt + 1) % 4 = 0 from h2)]
      cases h; rfl

theorem dec_more (b : List Byte) : ∀ (s : List Byte) (st : Dec) r, decLoop st s = .ok r →
    decLoop (ext st b) s = .ok (r.1 ++ b, r.2) := by
  intro s
  induction s with
  | nil => intro st r h; cases h
  | cons c s ih =>
    intro st r h
    have key : ∀ (st : Dec) p, (do
        let (st', stop) ← decPush st p
        if stop then pure (st'.dst, 0) else decLoop st' s) = .ok r → (do
        let (st', stop) ← decPush (ext st b) p
        if stop then pure (st'.dst, 0) else decLoop st' s) = .ok (r.1 ++ b, r.2) := by
      intro st p h
      obtain ⟨⟨st', stop⟩, e1, e2⟩ := bind_ok.1 h
      rw [push_more b e1, ok_bind]
      simp only at e2 ⊢
      cases stop with
      | true => cases e2; rfl
      | false => exact ih _ _ e2
    rw [decLoop] at h ⊢
    split at h
    · rename_i h1
      rw [if_pos h1]
      simp only at h ⊢
      split at h
      · rename_i h2
        rw [if_pos (show (ext st b).skip + 1 > 2 from h2)]
        cases h; rfl
      · rename_i h2
        rw [if_neg (show ¬(ext st b).skip + 1 > 2 from h2)]
        exact key _ _ h
    · rename_i h1
      rw [if_neg h1]
      split at h
      · rename_i h2
        rw [if_pos h2]
        split at h
        · rename_i h3
          rw [if_pos (show (ext st b).cnt % 4 ≠ 0 ∨ (ext st b).l = 0 from h3)]
          cases h; rfl
        · rename_i h3
          rw [if_neg (show ¬((ext st b).cnt % 4 ≠ 0 ∨ (ext st b).l = 0) from h3)]
          obtain ⟨a1, w1, e⟩ := bind_ok.1 h
          rw [show wr (ext st b).dst (ext st b).d 0 = _ from wr_more w1, ok_bind]
          cases e; rfl
      · rename_i h2
        rw [if_neg h2]
        split at h
        · rename_i h3
          rw [if_pos (show (ext st b).skip ≠ 0 from h3)]
          cases h; rfl
        · rename_i h3
          rw [if_neg (show ¬(ext st b).skip ≠ 0 from h3)]
          cases hc : chrpos c with
          | none => rw [hc] at h; cases h; rfl
          | some p => rw [hc] at h; exact key _ _ h

theorem base64dec_more {dst src : List Byte} {n : Nat} {r : List Byte × Nat} (b : List Byte) (h : base64dec dst src n = .ok r) :
    base64dec (dst ++ b) src n = .ok (r.1 ++ b, r.2) := by
  unfold base64dec at h ⊢
  split at h
  · rename_i h1
    rw [if_pos h1]
    exact dec_more b _ _ _ h
  · rename_i h1
    rw [if_neg h1]
    cases h; rfl

theorem dec_long {L : Nat} (hL : 3 * (2^29 - 1) ≤ L) : ∀ (s : List Byte) (st : Dec), st.skip = 0 → st.cnt < 2^31 →
    st.l + 3 * (st.cnt / 4) = L → st.d + st.l ≤ st.dst.length → 2^31 - st.cnt ≤ s.length →
    (∀ c ∈ s.take (2^31 - st.cnt), (chrpos c).isSome) → decLoop st s = .error .overflow := by
  intro s
  induction s with
  | nil => intro st _ h1 _ _ h2; simp at h2; omega
  | cons c s ih =>
    intro st h0 h1 h2 h3 h4 h5
    obtain ⟨k, hk⟩ : ∃ k, 2^31 - st.cnt = k + 1 := ⟨2^31 - st.cnt - 1, by omega⟩
    rw [hk, List.take_succ_cons] at h5
    have hc : (chrpos c).isSome := h5 c (by simp)
    obtain ⟨p, hp⟩ := Option.isSome_iff_exists.1 hc
    have n1 : c ≠ ch '=' := by intro h; rw [h, show chrpos (ch '=') = none by decide] at hp; cases hp
    have n2 : c ≠ 0 := by intro h; rw [h, show chrpos 0 = none by decide] at hp; cases hp
    rw [decLoop, if_neg n1, if_neg n2, if_neg (by simp [h0]), hp]
    simp only
    unfold decPush
    simp only
    by_cases hz : st.cnt = 2^31 - 1
    · rw [if_pos hz]; rfl
    · rw [if_neg hz]
      have h5' : ∀ c ∈ s.take (2^31 - (st.cnt + 1)), (chrpos c).isSome := by
        intro x hx
        rw [show 2^31 - (st.cnt + 1) = k by omega] at hx
        exact h5 x (List.mem_cons_of_mem _ hx)
      simp only [List.length_cons] at h4
      by_cases hm : (st.cnt + 1) % 4 = 0
      · rw [if_pos hm, if_neg (by omega)]
        have w : ∀ {a : List Byte} {i : Nat} (v : Byte), i < a.length → wr a i v = .ok (a.set i v) := fun v h => by unfold wr; rw [if_pos h]
        rw [w _ (by omega), ok_bind, w _ (by simp; omega), ok_bind, w _ (by simp; omega), ok_bind, pure_eq_ok, ok_bind]
        simp only [Bool.false_eq_true, if_false]
        exact ih _ h0 (by simp only; omega) (by simp only; omega) (by simp; omega) (by simp only; omega) h5'
      · rw [if_neg hm, pure_eq_ok, ok_bind]
        simp only [Bool.false_eq_true, if_false]
        exact ih _ h0 (by simp only; omega) (by simp only; omega) (by simp only; omega) (by simp only; omega) h5'

/-- With a destination of less than 3 * (2^29 - 1) bytes the counter cannot overflow. -/
theorem dec_small {L : Nat} (hL : L < 3 * (2^29 - 1)) (junk : List Byte) : ∀ (s : List Byte) (st : Dec), 0 ∉ s →
    st.l + 3 * (st.cnt / 4) = L → st.d + st.l ≤ st.dst.length →
    ∃ d n, decLoop st (s ++ 0 :: junk) = .ok (d, n) ∧ d.length = st.dst.length ∧ (n ≠ 0 → st.cnt + s.length < 2^31) := by
  intro s
  induction s with
  | nil =>
    intro st _ h2 h3
    rw [List.nil_append, decLoop, if_neg (by decide), if_pos rfl]
    split
    · exact ⟨_, _, rfl, rfl, by simp⟩
    · rename_i h
      have : st.l ≠ 0 := fun h' => h (.inr h')
      unfold wr
      rw [if_pos (by omega)]
      exact ⟨_, _, rfl, by simp, fun _ => by simp; omega⟩
  | cons c s ih =>
    intro st h0 h2 h3
    simp only [List.mem_cons, not_or] at h0
    have key : ∀ (st : Dec) p, st.l + 3 * (st.cnt / 4) = L → st.d + st.l ≤ st.dst.length →
        ∃ d n, (do
          let (st', stop) ← decPush st p
          if stop then pure (st'.dst, 0) else decLoop st' (s ++ 0 :: junk)) = .ok (d, n) ∧ d.length = st.dst.length ∧
          (n ≠ 0 → st.cnt + (c :: s).length < 2^31) := by
      intro st p h2 h3
      unfold decPush
      simp only
      rw [if_neg (by omega)]
      by_cases hm : (st.cnt + 1) % 4 = 0
      · rw [if_pos hm]
        by_cases hl : st.l < 3
        · rw [if_pos hl]
          exact ⟨_, _, rfl, rfl, by simp⟩
        · rw [if_neg hl]
          have w : ∀ {a : List Byte} {i : Nat} (v : Byte), i < a.length → wr a i v = .ok (a.set i v) := fun v h => by unfold wr; rw [if_pos h]
          rw [w _ (by omega), ok_bind, w _ (by simp; omega), ok_bind, w _ (by simp; omega), ok_bind, pure_eq_ok, ok_bind]
          simp only [Bool.false_eq_true, if_false]
          obtain ⟨d, n, e1, e2, e3⟩ := ih ⟨(((st.dst.set st.d _).set (st.d + 1) _).set (st.d + 2) _), st.d + 3, st.l - 3, _, 0, st.cnt + 1, st.skip⟩
            (fun h => h0.2 h) (by simp only; omega) (by simp; omega)
          exact ⟨d, n, e1, by rw [e2]; simp, fun h => by have := e3 h; simp only [List.length_cons] at this ⊢; omega⟩
      · rw [if_neg hm, pure_eq_ok, ok_bind]
        simp only [Bool.false_eq_true, if_false]
        obtain ⟨d, n, e1, e2, e3⟩ := ih ⟨st.dst, st.d, st.l, st.o, _, st.cnt + 1, st.skip⟩
            (fun h => h0.2 h) (by simp only; omega) (by simp only; omega)
        exact ⟨d, n, e1, e2, fun h => by have := e3 h; simp only [List.length_cons] at this ⊢; omega⟩
    rw [List.cons_append, decLoop]
    split
    · simp only
      split
      · exact ⟨_, _, rfl, rfl, by simp⟩
      · exact key _ _ h2 h3
    · rw [if_neg (fun h => h0.1 h.symm)]
      split
      · exact ⟨_, _, rfl, rfl, by simp⟩
      · cases hp : chrpos c with
        | none => exact ⟨_, _, rfl, rfl, by simp⟩
        | some p => exact key _ _ h2 h3

end

/-! ### Reading lines -/

section
open Fileparser

theorem find_more {a : List Byte} (b : List Byte) {n : Nat} : ∀ fuel i r, findLF a n fuel i = .ok r → findLF (a ++ b) n fuel i = .ok r := by
  intro fuel
  induction fuel with
  | zero => intro i r h; cases h
  | succ fuel ih =>
    intro i r h
    rw [findLF] at h ⊢
    split at h
    · rename_i h1
      rw [if_pos h1]
      obtain ⟨c, e1, e2⟩ := bind_ok.1 h
      rw [rd_more e1, ok_bind]
      split at e2
      · rename_i h2; rw [if_pos h2]; exact e2
      · rename_i h2; rw [if_neg h2]; exact ih _ _ e2
    · rename_i h1
      rw [if_neg h1]; exact h

theorem read_more {f : Fd} {a : List Byte} {n : Nat} {r} (b : List Byte) (h : Fileparser.read f a n = .ok r) :
    Fileparser.read f (a ++ b) n = .ok (r.1, r.2.1 ++ b, r.2.2) := by
  unfold Fileparser.read at h ⊢
  simp only at h ⊢
  obtain ⟨a', e, h⟩ := bind_ok.1 h
  rw [wrN_more e]; cases h; rfl

theorem readline_more {f : Fd} {p : FP} {a : List Byte} {n : Nat} {r} (b : List Byte) (h : readline_userbuf f p a n = .ok r) :
    readline_userbuf f p (a ++ b) n = .ok (r.1, r.2.1, r.2.2.1 ++ b, r.2.2.2) := by
  unfold readline_userbuf at h ⊢
  split at h
  · rename_i h1; rw [if_pos h1]; cases h; rfl
  · rename_i h1
    rw [if_neg h1]
    obtain ⟨⟨f1, a1, m⟩, e1, h⟩ := bind_ok.1 h
    rw [read_more b e1, ok_bind]
    simp only at h ⊢
    split at h
    · rename_i h2; rw [if_pos h2]; cases h; rfl
    · rename_i h2
      rw [if_neg h2]
      obtain ⟨q, e2, h⟩ := bind_ok.1 h
      rw [find_more b _ _ _ e2, ok_bind]
      cases q with
      | some i =>
        simp only at h ⊢
        obtain ⟨a2, e3, h⟩ := bind_ok.1 h
        rw [wr_more e3]; cases h; rfl
      | none =>
        simp only at h ⊢
        split at h
        · rename_i h3
          rw [if_pos h3]
          obtain ⟨a2, e3, h⟩ := bind_ok.1 h
          rw [wr_more e3]; cases h; rfl
        · rename_i h3; rw [if_neg h3]; cases h; rfl

end

/-! ### Paths -/

section
open Filelib

/-- The loop's variables with a longer buffer. -/
def more (s : St) (b : List Byte) : St := ⟨s.i, s.out ++ b, s.size⟩

theorem copy_more {P : List Byte} {s : St} {r} (b : List Byte) (h : copy P s = .ok r) : copy P (more s b) = .ok (r.map (more · b)) := by
  unfold copy at h ⊢
  simp only [bind_ok] at h
  obtain ⟨c, e1, o, e2, e3⟩ := h
  simp only [more]
  rw [e1, ok_bind, wr_more e2, ok_bind]
  cases e3; rfl

theorem back_more {a : List Byte} (b : List Byte) : ∀ k r, back a k = .ok r → back (a ++ b) k = .ok r := by
  intro k
  induction k with
  | zero => intro r h; exact h
  | succ k ih =>
    intro r h
    rw [back] at h ⊢
    obtain ⟨c, e1, e2⟩ := bind_ok.1 h
    rw [rd_more e1, ok_bind]
    split at e2
    · rename_i h1; rw [if_pos h1]; exact ih _ e2
    · rename_i h1; rw [if_neg h1]; exact e2

theorem pop_more {s : St} {r} (b : List Byte) (h : popC s = .ok r) : popC (more s b) = .ok (r.map (more · b)) := by
  unfold popC at h ⊢
  split at h
  · rename_i h1; rw [if_pos (show (more s b).size = 0 from h1)]; cases h; rfl
  · rename_i h1
    rw [if_neg (show ¬(more s b).size = 0 from h1)]
    simp only [bind_ok] at h
    obtain ⟨k, e1, c, e2, e3⟩ := h
    rw [show back (more s b).out ((more s b).size - 1) = _ from back_more b _ _ e1, ok_bind,
      show rd (more s b).out k = _ from rd_more e2, ok_bind]
    split at e3
    · rename_i h2; rw [if_pos h2]; cases e3; rfl
    · rename_i h2; rw [if_neg h2]; cases e3; rfl

theorem slash_more {P : List Byte} {s : St} {r} (b : List Byte) (h : slash P s = .ok r) : slash P (more s b) = .ok (r.map (more · b)) := by
  unfold slash at h ⊢
  obtain ⟨i, e1, h⟩ := bind_ok.1 h
  rw [show skip P (P.length + 1) (more s b).i = _ from e1, ok_bind]
  split at h
  · rename_i h1; rw [if_pos (show (more s b).size = 0 from h1)]; exact copy_more b h
  · rename_i h1
    rw [if_neg (show ¬(more s b).size = 0 from h1)]
    obtain ⟨c, e2, h⟩ := bind_ok.1 h
    rw [show rd (more s b).out ((more s b).size - 1) = _ from rd_more e2, ok_bind]
    split at h
    · rename_i h2; rw [if_pos h2]; exact copy_more b h
    · rename_i h2; rw [if_neg h2]; cases h; rfl

theorem dot_more {P : List Byte} {s : St} {r} (b : List Byte) (h : dotC P s = .ok r) : dotC P (more s b) = .ok (r.map (more · b)) := by
  unfold dotC at h ⊢
  obtain ⟨c, e1, h⟩ := bind_ok.1 h
  rw [show rd P ((more s b).i + 1) = _ from e1, ok_bind]
  split at h
  · rename_i h1
    rw [if_pos h1]
    obtain ⟨d, e2, h⟩ := bind_ok.1 h
    rw [show rd P ((more s b).i + 2) = _ from e2, ok_bind]
    split at h
    · rename_i h2; rw [if_pos h2]; exact pop_more b h
    · rename_i h2; rw [if_neg h2]; exact copy_more b h
  · rename_i h1
    rw [if_neg h1]
    split at h
    · rename_i h2; rw [if_pos h2]; cases h; rfl
    · rename_i h2
      rw [if_neg h2]
      split at h
      · rename_i h3; rw [if_pos h3]; cases h; rfl
      · rename_i h3; rw [if_neg h3]; exact copy_more b h

theorem step_more {P : List Byte} {s : St} {r} (b : List Byte) (h : stepC P s = .ok r) : stepC P (more s b) = .ok (r.map (more · b)) := by
  unfold stepC at h ⊢
  obtain ⟨c, e1, h⟩ := bind_ok.1 h
  rw [show rd P (more s b).i = _ from e1, ok_bind]
  split at h
  · rename_i h1; rw [if_pos h1]; exact slash_more b h
  · rename_i h1
    rw [if_neg h1]
    split at h
    · rename_i h2
      rw [if_pos h2]
      split at h
      · rename_i h3; rw [if_pos (show (more s b).i = 0 ∨ (more s b).size = 0 from h3)]; cases h; rfl
      · rename_i h3
        rw [if_neg (show ¬((more s b).i = 0 ∨ (more s b).size = 0) from h3)]
        obtain ⟨d, e2, h⟩ := bind_ok.1 h
        rw [show rd P ((more s b).i - 1) = _ from e2, ok_bind]
        split at h
        · rename_i h4
          rw [if_pos h4]
          obtain ⟨d, e3, h⟩ := bind_ok.1 h
          rw [show rd (more s b).out ((more s b).size - 1) = _ from rd_more e3, ok_bind]
          split at h
          · rename_i h5; rw [if_pos h5]; exact dot_more b h
          · rename_i h5; rw [if_neg h5]; exact copy_more b h
        · rename_i h4; rw [if_neg h4]; exact copy_more b h
    · rename_i h2; rw [if_neg h2]; exact copy_more b h

theorem loop_more {P : List Byte} (b : List Byte) : ∀ fuel s r, loopC P fuel s = .ok r → loopC P fuel (more s b) = .ok (r.1 ++ b, r.2) := by
  intro fuel
  induction fuel with
  | zero => intro s r h; cases h
  | succ fuel ih =>
    intro s r h
    rw [loopC] at h ⊢
    obtain ⟨c, e1, h⟩ := bind_ok.1 h
    rw [show rd P (more s b).i = _ from e1, ok_bind]
    split at h
    · rename_i h1
      rw [if_pos h1]
      obtain ⟨q, e2, h⟩ := bind_ok.1 h
      rw [step_more b e2, ok_bind]
      cases q with
      | none => cases h; rfl
      | some S =>
        simp only [Option.map] at h ⊢
        obtain ⟨d, e3, h⟩ := bind_ok.1 h
        rw [show rd P (more S b).i = _ from e3, ok_bind]
        split at h
        · rename_i h2; rw [if_pos h2]; cases h; rfl
        · rename_i h2; rw [if_neg h2]; exact ih _ _ h
    · rename_i h1; rw [if_neg h1]; cases h; rfl

theorem finish_more {a : List Byte} {n : Nat} {r} (b : List Byte) (h : finish a n = .ok r) : finish (a ++ b) n = .ok (r.1 ++ b, r.2) := by
  unfold finish at h ⊢
  split at h
  · rename_i h1
    rw [if_pos h1]
    obtain ⟨c, e1, h⟩ := bind_ok.1 h
    rw [rd_more e1, ok_bind]
    split at h
    · rename_i h2
      rw [if_pos h2]
      obtain ⟨a', e2, h⟩ := bind_ok.1 h
      rw [wr_more e2]; cases h; rfl
    · rename_i h2
      rw [if_neg h2]
      obtain ⟨a', e2, h⟩ := bind_ok.1 h
      rw [wr_more e2]; cases h; rfl
  · rename_i h1
    rw [if_neg h1]
    obtain ⟨a', e2, h⟩ := bind_ok.1 h
    rw [wr_more e2]; cases h; rfl

theorem tail_more {P a : List Byte} {i : Nat} {fuel : Nat} {r : List Byte × Bool} (b : List Byte)
    (h : (do match ← loopC P fuel ⟨i, a, i⟩ with
      | (out, none) => pure (out, false)
      | (out, some size) => pure ((← finish out size).1, true)) = .ok r) :
    (do match ← loopC P fuel ⟨i, a ++ b, i⟩ with
      | (out, none) => pure (out, false)
      | (out, some size) => pure ((← finish out size).1, true)) = (.ok (r.1 ++ b, r.2) : C (List Byte × Bool)) := by
  obtain ⟨⟨o, q⟩, e1, h⟩ := bind_ok.1 h
  rw [show loopC P fuel ⟨i, a ++ b, i⟩ = _ from loop_more b _ _ _ e1, ok_bind]
  cases q with
  | none => cases h; rfl
  | some n =>
    simp only at h ⊢
    obtain ⟨f, e2, h⟩ := bind_ok.1 h
    rw [finish_more b e2, ok_bind]
    cases h; rfl

theorem cstr_more {P a : List Byte} {r} (b : List Byte) (h : normalizepath_cstr P a = .ok r) :
    normalizepath_cstr P (a ++ b) = .ok (r.1 ++ b, r.2) := by
  unfold normalizepath_cstr at h ⊢
  obtain ⟨c, e1, h⟩ := bind_ok.1 h
  rw [e1, ok_bind]
  split at h
  · rename_i h1; rw [if_pos h1]; cases h; rfl
  · rename_i h1; rw [if_neg h1]; exact tail_more b h

theorem drive_more {P : List Byte} (b : List Byte) : ∀ fuel i a r, Psp.drive P fuel i a = .ok r → Psp.drive P fuel i (a ++ b) = .ok (r.1 ++ b, r.2) := by
  intro fuel
  induction fuel with
  | zero => intro i a r h; cases h
  | succ fuel ih =>
    intro i a r h
    rw [Psp.drive] at h ⊢
    obtain ⟨c, e1, h⟩ := bind_ok.1 h
    rw [e1, ok_bind]
    split at h
    · rename_i h1
      rw [if_pos h1]
      obtain ⟨a', e2, h⟩ := bind_ok.1 h
      rw [wr_more e2, ok_bind]
      split at h
      · rename_i h2
        rw [if_pos h2]
        split at h
        · rename_i h3
          rw [if_pos h3]
          obtain ⟨d, e3, h⟩ := bind_ok.1 h
          rw [e3, ok_bind]
          split at h
          · rename_i h4; rw [if_pos h4]; cases h; rfl
          · rename_i h4; rw [if_neg h4]; cases h; rfl
        · rename_i h3; rw [if_neg h3]; cases h; rfl
      · rename_i h2; rw [if_neg h2]; exact ih _ _ _ h
    · rename_i h1; rw [if_neg h1]; cases h; rfl

theorem psp_more {P a : List Byte} {r} (b : List Byte) (h : Psp.normalizepath_cstr P a = .ok r) :
    Psp.normalizepath_cstr P (a ++ b) = .ok (r.1 ++ b, r.2) := by
  unfold Psp.normalizepath_cstr at h ⊢
  obtain ⟨⟨o, q⟩, e1, h⟩ := bind_ok.1 h
  rw [drive_more b _ _ _ _ e1, ok_bind]
  cases q with
  | none => cases h; rfl
  | some i =>
    simp only at h ⊢
    obtain ⟨c, e2, h⟩ := bind_ok.1 h
    rw [e2, ok_bind]
    split at h
    · rename_i h1; rw [if_pos h1]; cases h; rfl
    · rename_i h1; rw [if_neg h1]; exact tail_more b h

end
end Ulz.Frame

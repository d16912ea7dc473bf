import Verif.Proofs.Saveread
/-! C220: reading a file while another process saves to it. -/
namespace Ulz.Props
open Ulz.Saveread Ulz.Saveread.Spec
open Ulz.Stringptr (SP)
open Ulz.Stringptr.Spec (Holds)

/-- C220: without the other process the steps are those of stringptr_fromfile. -/
theorem save_read_alone (d : Savers.Sys) (a : Alloc) (answers : List (Option Nat)) (r : Option SP)
    (h : Wholefile.stringptr_fromfile (some d.file.length) true a d.file answers = .ok r) :
    run ⟨d, .idle⟩ (.stat :: .opens a :: answers.map .read) = .ok ⟨d, .done r⟩ := by
  have hdone : ∀ (as : List (Option Nat)) (r : Option SP), run ⟨d, .done r⟩ (as.map .read) = .ok ⟨d, .done r⟩ := by
    intro as r
    induction as with
    | nil => rfl
    | cons a as ih => exact ih
  have hloop : ∀ (as : List (Option Nat)) (p : SP) (pos : Nat) (b : Option (List Byte)), Wholefile.fromfileLoop d.file p.size as pos p.buf = .ok b →
      run ⟨d, loop p pos⟩ (as.map .read) = .ok ⟨d, .done (b.map fun b => ⟨b, p.size⟩)⟩ := by
    intro as
    induction as with
    | nil =>
      intro p pos b hb
      unfold Wholefile.fromfileLoop at hb
      by_cases hlt : pos < p.size
      · rw [if_pos hlt] at hb; cases hb
      · rw [if_neg hlt] at hb
        have hb : some p.buf = b := Except.ok.inj hb
        subst hb
        unfold loop
        rw [if_neg hlt]
        rfl
    | cons a as ih =>
      intro p pos b hb
      unfold Wholefile.fromfileLoop at hb
      by_cases hlt : pos < p.size
      · rw [if_pos hlt] at hb
        unfold loop
        rw [if_pos hlt]
        show (step _ _ >>= fun s => run s (as.map .read)) = _
        cases a with
        | none =>
          have hb : none = b := Except.ok.inj hb
          subst hb
          exact hdone as none
        | some k =>
          simp only at hb
          simp only [step]
          cases hw : wrN p.buf pos (((d.file.drop pos).take (Wholefile.chunk (p.size - pos))).take k) with
          | error u => rw [hw] at hb; cases hb
          | ok buf =>
            rw [hw, ok_bind] at hb
            rw [ok_bind]
            exact ih ⟨buf, p.size⟩ _ b hb
      · rw [if_neg hlt] at hb
        have hb : some p.buf = b := Except.ok.inj hb
        subst hb
        unfold loop
        rw [if_neg hlt]
        exact hdone _ _
  unfold Wholefile.stringptr_fromfile at h
  simp only [Wholefile.getfilesize, Option.getD_some, Bool.not_true, Bool.false_eq_true, if_false] at h
  show run ⟨d, if d.file.length = 0 then .done none else .found d.file.length⟩ (.opens a :: answers.map .read) = _
  by_cases h0 : d.file.length = 0
  · rw [if_pos h0] at h ⊢
    have h : none = r := Except.ok.inj h
    subst h
    exact hdone answers none
  · rw [if_neg h0] at h ⊢
    show (step _ _ >>= fun s => run s (answers.map .read)) = _
    simp only [step]
    cases hn : Stringptr.new a d.file.length with
    | error u => rw [hn] at h; cases h
    | ok q =>
      rw [hn, ok_bind] at h
      rw [ok_bind]
      cases q with
      | none =>
        have h : none = r := Except.ok.inj h
        subst h
        exact hdone answers none
      | some p =>
        simp only at h ⊢
        have hp : p.size = d.file.length := by
          unfold Stringptr.new at hn
          cases hm : Stringptr.malloc a (szt (16 + d.file.length + 1)) with
          | none => rw [hm] at hn; cases hn
          | some obj =>
            rw [hm] at hn
            simp only at hn
            cases hw : wr (obj.drop 16) d.file.length 0 with
            | error u => rw [hw] at hn; cases hn
            | ok b =>
              rw [hw, ok_bind] at hn
              have := Option.some.inj (Except.ok.inj hn)
              rw [← this]
        rw [← hp] at h
        cases hl : Wholefile.fromfileLoop d.file p.size answers 0 p.buf with
        | error u => rw [hl] at h; cases h
        | ok b =>
          rw [hl, ok_bind] at h
          rw [show ∀ s : Sys, (pure s : C Sys) = .ok s from fun _ => rfl, ok_bind, hloop answers p 0 b hl]
          cases b with
          | none =>
            have h : none = r := Except.ok.inj h
            subst h; rfl
          | some b =>
            have h : some { p with buf := b } = r := Except.ok.inj h
            subst h; rfl

/-- C220: whatever the schedule, nothing is undefined, and a string that the reader gets has a part from the start of the new text, or the
    first `q` bytes of the old text and the new text behind them, up to the length of the old. If no read is cut short, `q` is a multiple of 64 KiB or
    all of the old text. -/
theorem save_read_outcomes (old c : List Byte) (hold : old.length + 17 < 2 ^ 64) (hc : c.length + 17 < 2 ^ 64) (es : List Ev) :
    ∃ s, run (start old c) es = .ok s ∧ ∀ p, s.reader = .done (some p) →
      (∃ n, 0 < n ∧ n ≤ c.length ∧ Holds p (c.take n)) ∨
      ∃ q, q ≤ old.length ∧ (q = old.length ∨ old.length ≤ c.length) ∧ Holds p (mix old c q old.length) ∧
        (Whole es → q = old.length ∨ q % 65536 = 0) := by
  obtain ⟨o, r, h1, _, h2, _⟩ := run_inv (W := Whole es) (old := old) (c := c) hold hc es none .idle (fun m h => by cases h) trivial (fun w => w)
  refine ⟨⟨disk old c o, r⟩, h1, fun p hp => ?_⟩
  have hp : r = .done (some p) := hp
  subst hp
  exact h2

/-- C220: and each of these is possible: every part of the new text, without a read cut short, -/
theorem save_read_part (old c : List Byte) (hc : c.length + 17 < 2 ^ 64) (n : Nat) (h0 : 0 < n) (hn : n ≤ c.length) :
    ∃ es, Good es ∧ Whole es ∧ Reads old c es (c.take n) := by
  have hl := disk_length old c n hn
  obtain ⟨p, e1, e2, e3⟩ := open_step (disk old c (some n)) (by omega) (by omega) (fun _ => 0)
  obtain ⟨j, p', f1, f2⟩ := reads_end (d := disk old c (some n)) (K := 65536) (by omega) _ p [] e2 (by simp; omega) (by omega) (Nat.le_refl _)
  refine ⟨[.save (.opens 0), .save (.writes 0 n)] ++ ([.stat, .opens (some fun _ => 0)] ++ List.replicate j (.read (some 65536))), ?_, ?_, ?_⟩
  · exact good_append ⟨by simp, by simp⟩ (good_append ⟨by simp, by simp⟩ (good_replicate ..))
  · intro k hk
    simp [List.mem_replicate] at hk
    omega
  · refine ⟨⟨disk old c (some n), .done (some p')⟩, p', ?_, rfl, ?_⟩
    · rw [run_append]
      have : run (start old c) [.save (.opens 0), .save (.writes 0 n)] = .ok ⟨disk old c (some n), .idle⟩ := save_start old c n hn .idle
      rw [this, ok_bind, run_append, e3, ok_bind]
      exact f2
    · rw [e1, hl] at f1
      simpa [disk, List.take_take] using f1

/-- C220: and every mixture, if the new text is long enough; without a read cut short, if the old part is all or a multiple of 64 KiB. -/
theorem save_read_mixed (old c : List Byte) (hold : old.length + 17 < 2 ^ 64) (h0 : old ≠ []) (q : Nat) (hq : q ≤ old.length)
    (hqc : q = old.length ∨ old.length ≤ c.length) :
    ∃ es, Good es ∧ (q = old.length ∨ q % 65536 = 0 → Whole es) ∧ Reads old c es (mix old c q old.length) := by
  have hpos := List.length_pos_iff.2 h0
  obtain ⟨p, e1, e2, e3⟩ := open_step (disk old c none) (show 0 < old.length from hpos) hold (fun _ => 0)
  have e1 : p.size = old.length := e1
  by_cases hqe : q = old.length
  · subst hqe
    obtain ⟨j, p', f1, f2⟩ := reads_end (d := disk old c none) (K := 65536) (by omega) _ p [] e2 (by simp; omega)
      (show p.size ≤ old.length by omega) (Nat.le_refl _)
    refine ⟨[.stat, .opens (some fun _ => 0)] ++ List.replicate j (.read (some 65536)), ?_, fun _ => ?_, ?_⟩
    · exact good_append ⟨by simp, by simp⟩ (good_replicate ..)
    · intro k hk
      simp [List.mem_replicate] at hk
      omega
    · refine ⟨⟨disk old c none, .done (some p')⟩, p', ?_, rfl, ?_⟩
      · rw [run_append]
        show (run ⟨disk old c none, .idle⟩ _ >>= _) = _
        rw [e3, ok_bind]
        exact f2
      · rw [e1] at f1
        rw [mix_self]
        simpa [disk] using f1
  · have hle : old.length ≤ c.length := by omega
    obtain ⟨K, j0, hK, hKj, hw⟩ : ∃ K j0, K ≤ 65536 ∧ K * j0 = q ∧ (q % 65536 = 0 → K = 65536) := by
      by_cases hm : q % 65536 = 0
      · exact ⟨65536, q / 65536, Nat.le_refl _, by omega, fun _ => rfl⟩
      · exact ⟨1, q, by omega, by omega, fun h => absurd h hm⟩
    obtain ⟨p1, f1, f2, f3⟩ := reads_up (d := disk old c none) hK j0 p [] e2 (by simp; omega) (by show _ ≤ old.length; simp; omega)
    have f2 : At p1 (old.take q) := by simpa [disk, hKj] using f2
    have hlq : (old.take q).length = q := by simp; omega
    have hlen := disk_length old c c.length (Nat.le_refl _)
    obtain ⟨j, p', g1, g2⟩ := reads_end (d := disk old c (some c.length)) (K := 65536) (by omega) _ p1 (old.take q) f2 (by omega)
      (by omega) (Nat.le_refl _)
    refine ⟨[.stat, .opens (some fun _ => 0)] ++ (List.replicate j0 (.read (some K)) ++ ([.save (.opens 0), .save (.writes 0 c.length)] ++
      List.replicate j (.read (some 65536)))), ?_, fun h => ?_, ?_⟩
    · exact good_append ⟨by simp, by simp⟩ (good_append (good_replicate ..) (good_append ⟨by simp, by simp⟩ (good_replicate ..)))
    · intro k hk
      have := hw (by omega)
      simp [List.mem_replicate] at hk
      omega
    · refine ⟨⟨disk old c (some c.length), .done (some p')⟩, p', ?_, rfl, ?_⟩
      · rw [run_append]
        show (run ⟨disk old c none, .idle⟩ _ >>= _) = _
        rw [e3, ok_bind, run_append]
        have f3 : run ⟨disk old c none, .reading p 0⟩ (List.replicate j0 (.read (some K))) = .ok ⟨disk old c none, .reading p1 q⟩ := by
          rw [← hKj]; simpa using f3
        rw [f3, ok_bind, run_append, save_start old c c.length (Nat.le_refl _), ok_bind]
        rw [hlq] at g2
        exact g2
      · rw [f1, e1, hlq] at g1
        simpa [disk, mix] using g1

/-- C220: NULL is possible although no text is empty, nothing fails and there is memory. -/
theorem save_read_null (old c : List Byte) : ∃ es s, Good es ∧ run (start old c) es = .ok s ∧ s.reader = .done none :=
  ⟨[.save (.opens 0), .stat], _, ⟨by simp, by simp⟩, rfl, rfl⟩

/-- C220: the reader can come into a state from which it never returns, unless a read fails, exactly if the new text is shorter than the
    old. -/
theorem save_read_forever (old c : List Byte) (hold : old.length + 17 < 2 ^ 64) (hc : c.length + 17 < 2 ^ 64) :
    (∃ es, Good es ∧ ∀ es', Good es' → ∀ s, run (start old c) (es ++ es') = .ok s → ¬ Ended s) ↔ c.length < old.length := by
  constructor
  · rintro ⟨es, _, h⟩
    apply Decidable.byContradiction
    intro hn
    obtain ⟨o, r, h1, h2, h3, _⟩ := run_inv (W := False) (old := old) (c := c) hold hc es none .idle (fun m h => by cases h) trivial (fun w => w.elim)
    have hr := rinv_mono (o' := some c.length) (fun m hm => ⟨_, rfl, h2 m hm⟩) h3
    obtain ⟨es', s, g1, g2, g3⟩ := finish hold hc (by omega) hr
    refine h ([.save (.opens 0), .save (.writes 0 c.length)] ++ es') (good_append ⟨by simp, by simp⟩ g1) s ?_ g3
    rw [run_append]
    have h1 : run (start old c) es = .ok ⟨disk old c o, r⟩ := h1
    rw [h1, ok_bind, run_append, save_all old c o h2, ok_bind]
    exact g2
  · intro hlt
    obtain ⟨p, e1, e2, e3⟩ := open_step (disk old c none) (show 0 < old.length by omega) hold (fun _ => 0)
    have e1 : p.size = old.length := e1
    refine ⟨[.stat, .opens (some fun _ => 0)] ++ [.save (.opens 0)], ⟨by simp, by simp⟩, fun es' hg s hs => ?_⟩
    rw [run_append, run_append] at hs
    have e3 : run (start old c) [.stat, .opens (some fun _ => 0)] = .ok ⟨disk old c none, .reading p 0⟩ := e3
    rw [e3, ok_bind] at hs
    have hs : run ⟨disk old c (some 0), .reading p 0⟩ es' = .ok s := hs
    obtain ⟨M, m1, m2⟩ := e2
    have hi : RInv False old c (some 0) (.reading p 0) :=
      ⟨by omega, [], M, m1, rfl, by simpa using m2, Or.inl ⟨e1, 0, Nat.le_refl _, by simp [mix], fun _ => rfl, fun w => w.elim⟩⟩
    obtain ⟨m', p', pos', e⟩ := forever hold hc hlt es' 0 p 0 (by omega) hi e1 (by omega) hg
    rw [e] at hs
    have := Except.ok.inj hs
    subst this
    rintro ⟨r, hr⟩
    cases hr

/-! Two texts of the same length, and a file that was replaced after the first portion. -/
example : ∃ es, Good es ∧ Whole es ∧ Reads (List.replicate 65540 1) (List.replicate 65540 2) es (List.replicate 65536 1 ++ List.replicate 4 2) := by
  obtain ⟨es, h1, h2, h3⟩ := save_read_mixed (List.replicate 65540 1) (List.replicate 65540 2) (by rw [List.length_replicate]; omega) (by
    intro h; have := congrArg List.length h; rw [List.length_replicate] at this; cases this) 65536 (by rw [List.length_replicate]; omega) (Or.inr (by simp only [List.length_replicate]; omega))
  refine ⟨es, h1, h2 (Or.inr rfl), ?_⟩
  have : mix (List.replicate 65540 1) (List.replicate 65540 2) 65536 (List.replicate 65540 (1 : Byte)).length = List.replicate 65536 1 ++ List.replicate 4 2 := by
    simp only [mix, List.length_replicate, List.take_replicate, List.drop_replicate]
    rfl
  rwa [this] at h3
/-- A schedule that ends with the old text, one that mixes, and one that waits for ever. -/
example : Reads (bytes! "abc") (bytes! "xyz") [.stat, .opens (some fun _ => 0), .read (some 9), .save (.opens 0)] (bytes! "abc") :=
  ⟨_, _, rfl, rfl, by decide, ⟨[0], rfl⟩⟩
example : Reads (bytes! "abc") (bytes! "xyz") [.stat, .opens (some fun _ => 0), .read (some 1), .save (.opens 0), .read (some 9), .save (.writes 0 3), .read (some 9)]
    (bytes! "ayz") := ⟨_, _, rfl, rfl, by decide, ⟨[0], rfl⟩⟩
example : (bytes! "hello").length < (bytes! "hello world").length := by decide

end Ulz.Props

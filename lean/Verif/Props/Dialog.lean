import Verif.Proofs.Dialog
import Verif.Props.Wait
/-! C219: talking to a process through fds[0], fds[1] and fds[2]. -/
namespace Ulz.Props
open Ulz.Dialog Ulz.Dialog.Spec

/-- C219: whatever the schedule, the caller reads a prefix of what it wrote, and at the end all of it. -/
theorem process_copy_order (c0 c1 b : Nat) (poll : Bool) (text : List Byte) (s : Copy) (h : Reach (Copy.Step c0 c1 b poll) (Copy.start text) s) :
    s.got <+: text ∧ (s.Done → s.got = text) := by
  have hi := Copy.inv_reach h
  refine ⟨⟨s.output ++ s.buf ++ s.input ++ s.rest, by simpa using hi.eq⟩, fun hd => ?_⟩
  obtain ⟨h1, h2, h3, h4⟩ := hd
  simpa [h1, h2, h3, h4] using hi.eq

/-- C219: a caller that writes all its text before it reads, to a process that copies: every schedule comes to the end exactly if the text
    has at most one byte more than the two pipes hold. -/
theorem process_copy_always (c0 c1 b : Nat) (h0 : 0 < c0) (h1 : 0 < c1) (hb : 0 < b) (text : List Byte) :
    Always (Copy.Step c0 c1 b false) Copy.Done (Copy.start text) ↔ text.length ≤ c0 + c1 + 1 := by
  constructor
  · intro ha
    apply Decidable.byContradiction
    intro hn
    -- the process takes one byte more than fits into the second pipe, then the first one fills up
    have hsplit : text = text.take c1 ++ ((text.drop c1).take 1 ++ ((text.drop (c1 + 1)).take c0 ++ text.drop (c1 + 1 + c0))) := by
      have e1 : (text.drop (c1 + 1)).take c0 ++ text.drop (c1 + 1 + c0) = text.drop (c1 + 1) := by
        rw [← List.drop_drop (i := c0) (j := c1 + 1)]; exact List.take_append_drop ..
      have e2 : (text.drop c1).take 1 ++ text.drop (c1 + 1) = text.drop c1 := by
        rw [← List.drop_drop]; exact List.take_append_drop ..
      rw [e1, e2, List.take_append_drop]
    have l1 : (text.take c1).length = c1 := by simp; omega
    have l2 : ((text.drop c1).take 1).length = 1 := by simp; omega
    have l3 : ((text.drop (c1 + 1)).take c0).length = c0 := by simp; omega
    have l4 : 0 < (text.drop (c1 + 1 + c0)).length := by simp; omega
    generalize text.take c1 = A at *
    generalize (text.drop c1).take 1 = B at *
    generalize (text.drop (c1 + 1)).take c0 = D at *
    generalize text.drop (c1 + 1 + c0) = E at *
    subst hsplit
    obtain ⟨x, rfl⟩ := List.length_eq_one_iff.1 l2
    obtain ⟨k, rfl⟩ : ∃ k, b = k + 1 := ⟨b - 1, by omega⟩
    have r1 : Reach (Copy.Step c0 c1 (k + 1) false) (Copy.start (A ++ ([x] ++ (D ++ E)))) ⟨[x] ++ (D ++ E), [], [], A, []⟩ := by
      simpa [Copy.start] using Copy.pass h0 hb A ([x] ++ (D ++ E)) [] [] (by simp [l1])
    have r2 : Reach (Copy.Step c0 c1 (k + 1) false) ⟨[x] ++ (D ++ E), [], [], A, []⟩ ⟨D ++ E, [x], [], A, []⟩ := by
      simpa using Copy.fill [x] (D ++ E) [] [] A [] (by simp; omega)
    have r3 : Reach (Copy.Step c0 c1 (k + 1) false) ⟨D ++ E, [x], [], A, []⟩ ⟨D ++ E, [], [x], A, []⟩ := by
      simpa using Reach.one (Copy.Step.take (c0 := c0) (c1 := c1) (b := k + 1) (poll := false) (r := D ++ E) (p := [x]) (o := A) (g := []) (by simp))
    have r4 : Reach (Copy.Step c0 c1 (k + 1) false) ⟨D ++ E, [], [x], A, []⟩ ⟨E, D, [x], A, []⟩ := by
      simpa using Copy.fill D E [] [x] A [] (by simp [l3])
    have hr := Reach.trans r1 (Reach.trans r2 (Reach.trans r3 r4))
    have hd := ha.2 _ hr (by
      intro t ht
      cases ht with
      | write h => omega
      | give h => omega
      | read h => rcases h with rfl | h
                  · simp at l4
                  · cases h)
    exact absurd hd.2.2.1 (by simp)
  · intro hl
    refine ⟨⟨_, fun n s' h => Nat.le_trans (Nat.le_add_right ..) (Run.bound Copy.weight (Copy.weight_step hb) h)⟩, fun s hr hs => ?_⟩
    have hi := Copy.inv_reach hr
    rcases Copy.stuck_cases h0 h1 hs with hd | ⟨a, b', c, d, _⟩
    · exact hd
    · exfalso
      have e := congrArg List.length hi.eq
      have := List.length_pos_iff.2 a
      have := List.length_pos_iff.2 c
      simp only [List.length_append] at e
      omega

/-- C219: and some schedule comes to the end exactly if it has at most as many more as the process reads at once. For longer texts every
    schedule ends with both waiting for ever. -/
theorem process_copy_sometimes (c0 c1 b : Nat) (h0 : 0 < c0) (h1 : 0 < c1) (hb : 0 < b) (text : List Byte) :
    Sometimes (Copy.Step c0 c1 b false) Copy.Done (Copy.start text) ↔ text.length ≤ c0 + c1 + min b c0 := by
  constructor
  · rintro ⟨s, hr, hd⟩
    apply Decidable.byContradiction
    intro hn
    have : s.rest ≠ [] ∧ Copy.Inv c0 c1 b false text s := by
      refine Reach.inv (fun s => s.rest ≠ [] ∧ Copy.Inv c0 c1 b false text s) ?_ hr ⟨?_, Copy.inv_start ..⟩
      · rintro s t ⟨hs, hi⟩ hst
        have hi' := Copy.inv_step s t hi hst
        refine ⟨?_, hi'⟩
        have hg := hi.ig rfl hs
        cases hst with
        | write hp =>
          rintro rfl
          have e := congrArg List.length hi'.eq
          have := hi'.i0; have := hi'.i1; have := hi'.ib
          simp only at hg
          subst hg
          simp only [List.length_append, List.length_nil] at *
          omega
        | take => exact hs
        | give => exact hs
        | read => exact hs
      · show text ≠ []
        rintro rfl; simp at hn
    exact this.1 hd.1
  · intro hl
    have hA : (text.take c1).length ≤ c1 := by simp; omega
    have hB : ((text.drop c1).take (min b c0)).length ≤ min b c0 := by simp; omega
    have hD : ((text.drop c1).drop (min b c0)).length ≤ c0 := by simp; omega
    have hsplit : text = text.take c1 ++ ((text.drop c1).take (min b c0) ++ (text.drop c1).drop (min b c0)) := by
      rw [List.take_append_drop, List.take_append_drop]
    generalize text.take c1 = A at *
    generalize (text.drop c1).take (min b c0) = B at *
    generalize (text.drop c1).drop (min b c0) = D at *
    subst hsplit
    have r1 : Reach (Copy.Step c0 c1 b false) (Copy.start (A ++ (B ++ D))) ⟨B ++ D, [], [], A, []⟩ := by
      simpa [Copy.start] using Copy.pass h0 hb A (B ++ D) [] [] (by simpa using hA)
    have r2 : Reach (Copy.Step c0 c1 b false) ⟨B ++ D, [], [], A, []⟩ ⟨D, B, [], A, []⟩ := by
      simpa using Copy.fill B D [] [] A [] (by simp; omega)
    have r3 : Reach (Copy.Step c0 c1 b false) ⟨D, B, [], A, []⟩ ⟨D, [], B, A, []⟩ := by
      by_cases hB0 : B = []
      · subst hB0; exact Reach.refl
      · have := Copy.Step.take (c0 := c0) (c1 := c1) (b := b) (poll := false) (r := D) (p := B) (o := A) (g := []) hB0
        rw [List.drop_eq_nil_of_le (by omega), List.take_of_length_le (by omega)] at this
        exact Reach.one this
    have r4 : Reach (Copy.Step c0 c1 b false) ⟨D, [], B, A, []⟩ ⟨[], D, B, A, []⟩ := by
      simpa using Copy.fill D [] [] B A [] (by simpa using hD)
    obtain ⟨t, ht, hs⟩ := exists_stuck Copy.weight (Copy.weight_step (c0 := c0) (c1 := c1) (poll := false) hb) ⟨[], D, B, A, []⟩
    refine ⟨t, Reach.trans r1 (Reach.trans r2 (Reach.trans r3 (Reach.trans r4 ht))), ?_⟩
    have hrest : t.rest = [] := by
      refine Reach.inv (fun s => s.rest = []) ?_ ht rfl
      intro s u hs hu
      cases hu with
      | write => cases hs
      | take => exact hs
      | give => exact hs
      | read => exact hs
    rcases Copy.stuck_cases h0 h1 hs with hd | ⟨a, _⟩
    · exact hd
    · exact absurd hrest a

/-- C219: in between it depends on the schedule. -/
theorem process_copy_depends (c0 c1 b : Nat) (h0 : 0 < c0) (h1 : 0 < c1) (hb : 0 < b) (text : List Byte) :
    (Sometimes (Copy.Step c0 c1 b false) Copy.Done (Copy.start text) ∧ Deadlocks (Copy.Step c0 c1 b false) Copy.Done (Copy.start text)) ↔
      c0 + c1 + 1 < text.length ∧ text.length ≤ c0 + c1 + min b c0 := by
  rw [process_copy_sometimes c0 c1 b h0 h1 hb]
  have hiff : Deadlocks (Copy.Step c0 c1 b false) Copy.Done (Copy.start text) ↔ ¬ Always (Copy.Step c0 c1 b false) Copy.Done (Copy.start text) := by
    constructor
    · rintro ⟨s, hr, hs, hd⟩ ha
      exact hd (ha.2 s hr hs)
    · intro hn
      apply Classical.byContradiction
      intro hd
      refine hn ⟨⟨_, fun n s' h => Nat.le_trans (Nat.le_add_right ..) (Run.bound Copy.weight (Copy.weight_step hb) h)⟩, fun s hr hs => ?_⟩
      apply Classical.byContradiction
      intro hnd
      exact hd ⟨s, hr, hs, hnd⟩
  rw [hiff, process_copy_always c0 c1 b h0 h1 hb]
  omega

/-- C219: a caller that reads whenever there is something to read comes to the end with every text, under every schedule. -/
theorem process_copy_poll (c0 c1 b : Nat) (h0 : 0 < c0) (h1 : 0 < c1) (hb : 0 < b) (text : List Byte) :
    Always (Copy.Step c0 c1 b true) Copy.Done (Copy.start text) := by
  refine ⟨⟨_, fun n s' h => Nat.le_trans (Nat.le_add_right ..) (Run.bound Copy.weight (Copy.weight_step hb) h)⟩, fun s hr hs => ?_⟩
  rcases Copy.stuck_cases h0 h1 hs with hd | ⟨_, _, _, _, a⟩
  · exact hd
  · cases a

/-- C219: a caller that reads fds[1] to its end and then fds[2]: every schedule comes to the end, with all that the process wrote, if what
    it writes to standard error fits into the pipe. Otherwise none does. -/
theorem process_two_outputs (c1 c2 : Nat) (h1 : 0 < c1) (w : List (Bool × Byte)) :
    (Always (Both.Step c1 c2) Both.Done (Both.start w) ↔ (errs w).length ≤ c2) ∧
    (Sometimes (Both.Step c1 c2) Both.Done (Both.start w) ↔ (errs w).length ≤ c2) ∧
    ∀ s, Reach (Both.Step c1 c2) (Both.start w) s → s.Done → s.got1 = outs w ∧ s.got2 = errs w := by
  have hnec : Sometimes (Both.Step c1 c2) Both.Done (Both.start w) → (errs w).length ≤ c2 := by
    rintro ⟨s, hr, hd⟩
    exact ((Both.inv_reach hr).t hd.2.2.2).2.2
  have hsuf : (errs w).length ≤ c2 → Always (Both.Step c1 c2) Both.Done (Both.start w) := by
    intro hl
    refine ⟨⟨_, fun n s' h => Nat.le_trans (Nat.le_add_right ..) (Run.bound Both.weight Both.weight_step h)⟩, fun s hr hs => ?_⟩
    have hi := Both.inv_reach hr
    obtain ⟨t, o, e, m, g, h⟩ := s
    cases m with
    | true =>
      obtain ⟨ht, ho, _⟩ := hi.t rfl
      simp only at ht ho
      subst ht ho
      cases e with
      | nil => exact ⟨rfl, rfl, rfl, rfl⟩
      | cons x e => exact absurd Both.Step.read2 (hs _)
    | false =>
      exfalso
      cases o with
      | cons x o => exact hs _ Both.Step.read1
      | nil =>
        cases t with
        | nil => exact hs _ Both.Step.eof1
        | cons x t =>
          obtain ⟨d, x⟩ := x
          cases d with
          | false => exact hs _ (Both.Step.out (by simpa using h1))
          | true =>
            refine hs _ (Both.Step.err ?_)
            have e2 := congrArg List.length hi.e2
            have := hi.f rfl
            simp only at this
            subst this
            simp only [Both.errs_cons_true, List.length_append, List.length_cons, List.length_nil] at e2
            omega
  refine ⟨⟨fun h => hnec (Always.sometimes Both.weight Both.weight_step h), hsuf⟩,
    ⟨hnec, fun h => Always.sometimes Both.weight Both.weight_step (hsuf h)⟩, fun s hr hd => ?_⟩
  have hi := Both.inv_reach hr
  obtain ⟨a, b, c, d⟩ := hd
  exact ⟨by simpa [a, b, outs] using hi.e1, by simpa [a, c, errs] using hi.e2⟩

/-- C219: a caller that reads `j` of the `k` bytes that the process writes before it exits with `code`, and calls process_close, gets a
    result under every schedule. -/
theorem process_close_unread_ends (c1 : Nat) (h1 : 0 < c1) (code retval : BitVec 32) (k j : Nat) (hj : j ≤ k) :
    Always (Leave.Step c1 code) (fun s => ∃ v, s.result retval = some v) (Leave.start k j) := by
  refine ⟨⟨_, fun n s' h => Nat.le_trans (Nat.le_add_right ..) (Run.bound Leave.weight Leave.weight_step h)⟩, fun s hr hs => ?_⟩
  have hi := Leave.inv_reach hr
  obtain ⟨l, p, w, c, f⟩ := s
  cases c with
  | true =>
    cases f with
    | some f => exact ⟨_, rfl⟩
    | none =>
      exfalso
      cases l with
      | zero => exact hs _ Leave.Step.exit
      | succ l => exact hs _ Leave.Step.sigpipe
  | false =>
    exfalso
    cases w with
    | zero => exact hs _ Leave.Step.close
    | succ w =>
      cases p with
      | succ p => exact hs _ Leave.Step.read
      | zero =>
        have hsum := hi.sum
        simp only at hsum
        cases l with
        | zero => omega
        | succ l =>
          cases f with
          | none => exact hs _ (Leave.Step.write h1)
          | some f =>
            rcases hi.f f rfl with a | a
            · exact absurd a.1 (by simp)
            · exact absurd a.1 (by simp)

/-- C219: the result can be the exit code if what is not read fits into the pipe, and it can be 0 if there is anything that is not read
    (the process is killed by SIGPIPE); nothing else. -/
theorem process_close_unread (c1 : Nat) (h1 : 0 < c1) (code retval : BitVec 32) (k j : Nat) (hj : j ≤ k) (v : BitVec 32) :
    Sometimes (Leave.Step c1 code) (fun s => s.result retval = some v) (Leave.start k j) ↔
      (k ≤ j + c1 ∧ v.toNat = code.toNat % 256) ∨ (j < k ∧ v = 0) := by
  constructor
  · rintro ⟨s, hr, hv⟩
    have hi := Leave.inv_reach hr
    obtain ⟨l, p, w, c, f⟩ := s
    cases c with
    | false => cases hv
    | true =>
      cases f with
      | none => cases hv
      | some f =>
        have hv : Wait.process_close retval (some f) = v := Option.some.inj hv
        have hw := hi.c rfl
        have hsum := hi.sum
        have hcap := hi.cap
        simp only at hw hsum hcap
        rcases hi.f f rfl with ⟨a, rfl⟩ | ⟨_, a, rfl⟩
        · simp only at a
          exact Or.inl ⟨by omega, by rw [← hv]; exact process_close_exited retval code⟩
        · simp only at a
          refine Or.inr ⟨?_, by rw [← hv]; exact process_close_killed retval 13 false⟩
          omega
  · rintro (⟨hk, hv⟩ | ⟨hk, rfl⟩)
    · have r1 : Reach (Leave.Step c1 code) (Leave.start k j) ⟨k - j, 0, 0, false, none⟩ := by
        have := Leave.pump (code := code) h1 j (k - j) 0
        rwa [show k - j + j = k by omega, Nat.zero_add] at this
      have r2 : Reach (Leave.Step c1 code) ⟨k - j, 0, 0, false, none⟩ ⟨0, k - j, 0, false, none⟩ := by
        have := Leave.push (code := code) (c1 := c1) (k - j) 0 0 0 (by omega)
        rwa [Nat.zero_add] at this
      refine ⟨_, Reach.trans r1 (Reach.trans r2 (Reach.trans (Reach.one Leave.Step.exit) (Reach.one Leave.Step.close))), ?_⟩
      show some _ = some v
      congr 1
      apply BitVec.eq_of_toNat_eq
      rw [process_close_exited, hv]
    · have r1 : Reach (Leave.Step c1 code) (Leave.start k j) ⟨k - j - 1 + 1, 0, 0, false, none⟩ := by
        have := Leave.pump (code := code) h1 j (k - j) 0
        rwa [show k - j + j = k by omega, Nat.zero_add, show k - j = k - j - 1 + 1 by omega] at this
      refine ⟨_, Reach.trans r1 (Reach.trans (Reach.one Leave.Step.close) (Reach.one Leave.Step.sigpipe)), ?_⟩
      exact congrArg some (process_close_killed retval 13 false)

/-- C219: so process_close tells the exit code of a process that fails, under every schedule, exactly if all its output was read. -/
theorem process_close_reliable (c1 : Nat) (h1 : 0 < c1) (code retval : BitVec 32) (hc : code.toNat % 256 ≠ 0) (k j : Nat) (hj : j ≤ k) :
    Always (Leave.Step c1 code) (fun s => ∃ v, s.result retval = some v ∧ v.toNat = code.toNat % 256) (Leave.start k j) ↔ j = k := by
  constructor
  · intro ha
    apply Decidable.byContradiction
    intro hn
    obtain ⟨s, hr, hv⟩ := (process_close_unread c1 h1 code retval k j hj 0).2 (Or.inr ⟨by omega, rfl⟩)
    obtain ⟨t, ht, hs⟩ := exists_stuck Leave.weight (Leave.weight_step (c1 := c1) (code := code)) s
    obtain ⟨v, hv', hvc⟩ := ha.2 t (Reach.trans hr ht) hs
    have : t.result retval = some 0 := by
      refine Reach.inv (fun s => s.result retval = some 0) ?_ ht hv
      intro s u hs hu
      cases hu with
      | write => cases hs
      | sigpipe => cases hs
      | exit => rename_i c; cases c <;> cases hs
      | read => cases hs
      | close => cases hs
    rw [this] at hv'
    cases hv'
    exact hc (by simpa using hvc.symm)
  · rintro rfl
    obtain ⟨hb, ha⟩ := process_close_unread_ends c1 h1 code retval j j hj
    refine ⟨hb, fun s hr hs => ?_⟩
    obtain ⟨v, hv⟩ := ha s hr hs
    rcases (process_close_unread c1 h1 code retval j j hj v).1 ⟨s, hr, hv⟩ with a | a
    · exact ⟨v, hv, a.2⟩
    · omega

/-! Pipes of 65536 bytes, as on Linux, and a process that reads 131072 bytes at a time, like `cat` of GNU coreutils. -/

/-- 131073 bytes always get through, 131074 need luck, and 196609 never do. -/
example : Always (Copy.Step 65536 65536 131072 false) Copy.Done (Copy.start (List.replicate 131073 7)) :=
  (process_copy_always _ _ _ (by omega) (by omega) (by omega) _).2 (by rw [List.length_replicate]; omega)
example : Deadlocks (Copy.Step 65536 65536 131072 false) Copy.Done (Copy.start (List.replicate 131074 7)) :=
  ((process_copy_depends _ _ _ (by omega) (by omega) (by omega) _).2 (by rw [List.length_replicate]; omega)).2
example : ¬ Sometimes (Copy.Step 65536 65536 131072 false) Copy.Done (Copy.start (List.replicate 196609 7)) :=
  fun h => absurd ((process_copy_sometimes _ _ _ (by omega) (by omega) (by omega) _).1 h) (by rw [List.length_replicate]; omega)
/-- A reachable state in the middle. -/
example : Reach (Copy.Step 2 2 4 false) (Copy.start [1, 2, 3]) ⟨[3], [], [1, 2], [], []⟩ :=
  Reach.trans (Reach.one (.write (by decide))) (Reach.trans (Reach.one (.write (by decide))) (Reach.one (.take (by decide))))
/-- A process that writes to both outputs. -/
example : (errs [(false, 1), (true, 2), (false, 3), (true, 4)]).length ≤ 2 ∧ outs [(false, 1), (true, 2), (false, 3), (true, 4)] = [1, 3] := by decide
/-- A process that writes three bytes and exits with 1, and a caller that reads two of them. -/
example : Sometimes (Leave.Step 65536 1) (fun s => s.result 0 = some 0) (Leave.start 3 2) :=
  (process_close_unread _ (by omega) 1 0 3 2 (by omega) 0).2 (Or.inr ⟨by omega, rfl⟩)
example : Sometimes (Leave.Step 65536 1) (fun s => s.result 0 = some 1) (Leave.start 3 2) :=
  (process_close_unread _ (by omega) 1 0 3 2 (by omega) 1).2 (Or.inl ⟨by omega, rfl⟩)

end Ulz.Props

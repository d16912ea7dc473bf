import Verif.Proofs.Coproc
/-! C225: questions and answers. -/
namespace Ulz.Props
open Ulz.Coproc Ulz.Dialog.Spec

/-- C225: what the caller has read is always the beginning of the answers in order, and at the end all of them. -/
theorem coproc_order (K : Kind) (hB : 0 < K.size) (ans : Nat → List Byte) (s : Sys) (h : Reach (Coproc.Step K ans) Coproc.start s) :
    s.got <+: answers ans K.n ∧ (Coproc.Done K ans s → s.got = answers ans K.n) := by
  have hi := reach_inv hB h
  have hp : s.got <+: answers ans K.n := by
    refine List.IsPrefix.trans ?_ (answers_prefix ans (Nat.le_trans hi.le1 hi.le2))
    rw [← hi.text, List.append_assoc]
    exact List.prefix_append _ _
  exact ⟨hp, fun hd => hp.eq_of_length hd.2⟩

/-- C225: every schedule comes to the end exactly if the process flushes its output after every answer, or every answer that the caller
    waits for fills buffers exactly; if the caller closes fds[0] after the last question this does not matter for the last answer. -/
theorem coproc_always (K : Kind) (hB : 0 < K.size) (hp : 0 < K.pipe) (ans : Nat → List Byte) :
    Always (Coproc.Step K ans) (Coproc.Done K ans) Coproc.start ↔
      K.flush = true ∨ ∀ i < K.n, (i + 1 = K.n ∧ K.closes = true) ∨ K.size ∣ (ans i).length := by
  constructor
  · intro h
    cases hf : K.flush with
    | true => exact .inl rfl
    | false =>
      right
      intro i
      induction i using Nat.strongRecOn with
      | _ i ih =>
        intro hi
        apply Decidable.byContradiction
        intro hn
        simp only [not_or] at hn
        have hmin : ∀ j < i, K.size ∣ (ans j).length := by
          intro j hj
          rcases ih j hj (by omega) with ⟨h1, _⟩ | h1
          · omega
          · exact h1
        obtain ⟨N, hN⟩ := h.1
        have hex : ∃ t, Reach (Coproc.Step K ans) Coproc.start t ∧ Stuck (Coproc.Step K ans) t := by
          apply Classical.byContradiction
          intro hno
          have hgo : ∀ n, ∃ t, Run (Coproc.Step K ans) Coproc.start n t := by
            intro n
            induction n with
            | zero => exact ⟨_, Run.nil⟩
            | succ n ihn =>
              obtain ⟨t, ht⟩ := ihn
              apply Classical.byContradiction
              intro hc
              exact hno ⟨t, ⟨n, ht⟩, fun u hu => hc ⟨u, Run.snoc ht hu⟩⟩
          obtain ⟨t, ht⟩ := hgo (N + 1)
          have := hN _ _ ht
          omega
        obtain ⟨t, ht, hs⟩ := hex
        have hd := h.2 t ht hs
        have hb := blocked hB hf hi hn.1 hn.2 hmin ht
        have := answers_le ans (show i + 1 ≤ K.n from hi)
        have := hd.2
        omega
  · intro h
    refine ⟨⟨weight K ans Coproc.start, fun n t hr => by have := (run_bound hB hr).1; omega⟩, fun t ht hs => progress hB hp h t (reach_inv hB ht) hs⟩

/-- C225: otherwise no schedule does: the caller waits for the rest of an answer, and the process for the next question. -/
theorem coproc_never (K : Kind) (hB : 0 < K.size) (hp : 0 < K.pipe) (ans : Nat → List Byte) :
    Sometimes (Coproc.Step K ans) (Coproc.Done K ans) Coproc.start ↔
      K.flush = true ∨ ∀ i < K.n, (i + 1 = K.n ∧ K.closes = true) ∨ K.size ∣ (ans i).length := by
  constructor
  · rintro ⟨t, ht, hd⟩
    cases hf : K.flush with
    | true => exact .inl rfl
    | false =>
      right
      intro i
      induction i using Nat.strongRecOn with
      | _ i ih =>
        intro hi
        apply Decidable.byContradiction
        intro hn
        simp only [not_or] at hn
        have hmin : ∀ j < i, K.size ∣ (ans j).length := by
          intro j hj
          rcases ih j hj (by omega) with ⟨h1, _⟩ | h1
          · omega
          · exact h1
        have hb := blocked hB hf hi hn.1 hn.2 hmin ht
        have := answers_le ans (show i + 1 ≤ K.n from hi)
        have := hd.2
        omega
  · intro h
    have ha := (coproc_always K hB hp ans).2 h
    obtain ⟨N, hN⟩ := ha.1
    apply Classical.byContradiction
    intro hno
    have hgo : ∀ n, ∃ t, Run (Coproc.Step K ans) Coproc.start n t := by
      intro n
      induction n with
      | zero => exact ⟨_, Run.nil⟩
      | succ n ihn =>
        obtain ⟨t, ht⟩ := ihn
        apply Classical.byContradiction
        intro hc
        exact hno ⟨t, ⟨n, ht⟩, ha.2 t ⟨n, ht⟩ fun u hu => hc ⟨u, Run.snoc ht hu⟩⟩
    obtain ⟨t, ht⟩ := hgo (N + 1)
    have := hN _ _ ht
    omega

/-- C225: the test program of process.c, which asks once and does not close fds[0] before it reads: with a process whose buffer
    is larger than the answer it waits for ever, under every schedule. -/
theorem coproc_test_program (size pipe : Nat) (hs : 5 < size) (hp : 0 < pipe) (flush : Bool) :
    Sometimes (Coproc.Step ⟨size, flush, pipe, 1, false⟩ fun _ => bytes! "bfoo\n") (Coproc.Done ⟨size, flush, pipe, 1, false⟩ fun _ => bytes! "bfoo\n") Coproc.start ↔
      flush = true := by
  rw [coproc_never _ (by simp only; omega) hp]
  constructor
  · rintro (h | h)
    · exact h
    · rcases h 0 (by simp) with ⟨_, h⟩ | h
      · cases h
      · have := Nat.le_of_dvd (by decide) h
        simp only at this
        have e : (bytes! "bfoo\n").length = 5 := by decide
        omega
  · exact .inl

/-! Two questions to a process with a buffer of four bytes, answers of four and two bytes: it comes to the end if the caller closes fds[0]. -/
example : Always (Coproc.Step ⟨4, false, 1, 2, true⟩ fun i => if i = 0 then [1, 2, 3, 4] else [5, 6])
    (Coproc.Done ⟨4, false, 1, 2, true⟩ fun i => if i = 0 then [1, 2, 3, 4] else [5, 6]) Coproc.start :=
  (coproc_always _ (by decide) (by decide) _).2 (.inr (by decide))
example : ¬ Sometimes (Coproc.Step ⟨4, false, 1, 2, false⟩ fun i => if i = 0 then [1, 2, 3, 4] else [5, 6])
    (Coproc.Done ⟨4, false, 1, 2, false⟩ fun i => if i = 0 then [1, 2, 3, 4] else [5, 6]) Coproc.start :=
  fun h => absurd ((coproc_never _ (by decide) (by decide) _).1 h) (by decide)

end Ulz.Props

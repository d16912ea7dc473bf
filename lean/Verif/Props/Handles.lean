import Verif.Proofs.Handles
namespace Ulz.Props
open Ulz.Handles Ulz.Handles.Spec

/-- C235. Whatever the system answers, and at every moment while they run, the four functions read, write, seek and close only the
    descriptor they have opened themselves, and not after they have closed it. -/
theorem handles_own (args mem : Bool) (fd : Option Nat) (size : Nat) (sizes : List Nat) (answers : List (Option Nat)) (turns : List Turn) :
    UsesOwn (stringptr_tofile args fd size answers).1 ∧ UsesOwn (stringptr_fromfile size fd mem answers).1 ∧
    UsesOwn (stringptrlist_tofile fd sizes answers).1 ∧ UsesOwn (stringptrlist_fromfile fd turns).1 := by
  have h0 : UsesOwn [] := fun pre e post h => by simp at h
  have hw : ∀ d, ∀ {t : List Ev}, (∀ e ∈ t, e = .write d) → ∀ e ∈ t, Inner d e := fun d t h e he => by rw [h e he]; rfl
  refine ⟨?_, ?_, ?_, ?_⟩
  · unfold stringptr_tofile
    split
    · exact h0
    · cases fd with
      | none => exact h0
      | some d =>
        have := hw d (tofileLoop_inner d size answers 0)
        cases hx : tofileLoop d size answers 0 with
        | mk t r =>
          rw [hx] at this
          cases r with
          | none => simpa [hx] using usesOwn_shape (c := true) this (.inl rfl)
          | some n => simpa [hx] using usesOwn_shape (c := true) this (.inr rfl)
  · unfold stringptr_fromfile
    split
    · exact h0
    · cases fd with
      | none => exact h0
      | some d =>
        simp only
        split
        · exact usesOwn_shape (d := d) (c := true) (t := []) (by simp) (.inr rfl)
        · have : ∀ e ∈ Ev.malloc :: (fromfileLoop d size answers 0).1, Inner d e := by
            intro e he
            simp at he
            rcases he with rfl | he
            · trivial
            · rcases fromfileLoop_inner d size answers 0 e he with rfl | rfl
              · rfl
              · trivial
          cases hx : fromfileLoop d size answers 0 with
          | mk t r =>
            rw [hx] at this
            cases r with
            | none => simpa using usesOwn_shape (c := true) this (.inl rfl)
            | some n => simpa using usesOwn_shape (c := true) this (.inr rfl)
  · unfold stringptrlist_tofile
    cases fd with
    | none => exact h0
    | some d =>
      have := hw d (listLoop_inner d sizes answers)
      cases hx : listLoop d sizes answers with
      | mk t r =>
        rw [hx] at this
        cases r with
        | none => simpa [hx] using usesOwn_shape (c := false) this (.inl rfl)
        | some n => simpa [hx] using usesOwn_shape (c := false) this (.inr rfl)
  · unfold stringptrlist_fromfile
    cases fd with
    | none => exact h0
    | some d =>
      have : ∀ e ∈ (fromLoop d turns 0).1, Inner d e := fun e he => by
        rcases fromLoop_inner d turns 0 e he with rfl | rfl | rfl
        · rfl
        · rfl
        · trivial
      cases hx : fromLoop d turns 0 with
      | mk t r =>
        rw [hx] at this
        cases r with
        | none => simpa [hx] using usesOwn_shape (c := true) this (.inl rfl)
        | some n =>
          simp only [hx]
          split
          · exact usesOwn_shape this (.inr rfl)
          · exact usesOwn_shape this (.inl rfl)

/-- C235. When stringptr_tofile, stringptr_fromfile or stringptrlist_tofile returns, no descriptor it opened is still open, on no
    path. After stringptrlist_fromfile none is exactly if `open` failed or gave another descriptor than 0. -/
theorem handles_closed (args mem : Bool) (fd : Option Nat) (size : Nat) (sizes : List Nat) (answers : List (Option Nat)) (turns : List Turn) :
    ((stringptr_tofile args fd size answers).2 ≠ none → held (stringptr_tofile args fd size answers).1 [] = []) ∧
    ((stringptr_fromfile size fd mem answers).2 ≠ none → held (stringptr_fromfile size fd mem answers).1 [] = []) ∧
    ((stringptrlist_tofile fd sizes answers).2 ≠ none → held (stringptrlist_tofile fd sizes answers).1 [] = []) ∧
    ((stringptrlist_fromfile fd turns).2 ≠ none → (held (stringptrlist_fromfile fd turns).1 [] = [] ↔ fd ≠ some 0)) := by
  have hw : ∀ d, ∀ {t : List Ev}, (∀ e ∈ t, e = .write d) → ∀ e ∈ t, Inner d e := fun d t h e he => by rw [h e he]; rfl
  refine ⟨?_, ?_, ?_, ?_⟩
  · unfold stringptr_tofile
    split
    · intro _; rfl
    · cases fd with
      | none => intro _; rfl
      | some d =>
        have := hw d (tofileLoop_inner d size answers 0)
        cases hx : tofileLoop d size answers 0 with
        | mk t r =>
          rw [hx] at this
          cases r with
          | none => intro h; simp [hx] at h
          | some n => intro _; simpa [hx] using held_closed (c := true) this
  · unfold stringptr_fromfile
    split
    · intro _; rfl
    · cases fd with
      | none => intro _; rfl
      | some d =>
        simp only
        split
        · intro _; exact held_closed (d := d) (c := true) (t := []) (by simp)
        · have : ∀ e ∈ Ev.malloc :: (fromfileLoop d size answers 0).1, Inner d e := by
            intro e he
            simp at he
            rcases he with rfl | he
            · trivial
            · rcases fromfileLoop_inner d size answers 0 e he with rfl | rfl
              · rfl
              · trivial
          cases hx : fromfileLoop d size answers 0 with
          | mk t r =>
            rw [hx] at this
            cases r with
            | none => intro h; simp at h
            | some n => intro _; simpa using held_closed (c := true) this
  · unfold stringptrlist_tofile
    cases fd with
    | none => intro _; rfl
    | some d =>
      have := hw d (listLoop_inner d sizes answers)
      cases hx : listLoop d sizes answers with
      | mk t r =>
        rw [hx] at this
        cases r with
        | none => intro h; simp [hx] at h
        | some n => intro _; simpa [hx] using held_closed (c := false) this
  · unfold stringptrlist_fromfile
    cases fd with
    | none => intro _; simp [held]
    | some d =>
      have : ∀ e ∈ (fromLoop d turns 0).1, Inner d e := fun e he => by
        rcases fromLoop_inner d turns 0 e he with rfl | rfl | rfl
        · rfl
        · rfl
        · trivial
      cases hx : fromLoop d turns 0 with
      | mk t r =>
        rw [hx] at this
        cases r with
        | none => intro h; simp [hx] at h
        | some n =>
          intro _
          simp only [hx]
          split
          · rename_i hd
            have h1 := held_closed (c := true) this
            simp only [h1, true_iff]
            intro h; injection h; omega
          · rename_i hd
            have h1 := held_open (c := true) this
            have hz : d = 0 := by omega
            subst hz
            simp only at h1
            rw [List.append_nil, h1]
            simp

/-- C235. Descriptor 0: stringptrlist_fromfile opens the file, reads nothing, reports success, adds no line and leaves the file open. -/
theorem handles_zero (turns : List Turn) : stringptrlist_fromfile (some 0) turns = ([.open 0 true], some (1, 0)) := by
  cases turns <;> rfl

/-- C235. A program that another thread starts, at whatever moment, while stringptr_tofile, stringptr_fromfile or
    stringptrlist_fromfile runs or after it has returned, gets no descriptor of theirs. -/
theorem handles_inherit (args mem : Bool) (fd : Option Nat) (size : Nat) (answers : List (Option Nat)) (turns : List Turn) (pre : List Ev)
    (h : pre <+: (stringptr_tofile args fd size answers).1 ∨ pre <+: (stringptr_fromfile size fd mem answers).1 ∨
      pre <+: (stringptrlist_fromfile fd turns).1) : inherited pre = [] := by
  have hw : ∀ d, ∀ {t : List Ev}, (∀ e ∈ t, e = .write d) → ∀ e ∈ t, Inner d e := fun d t h e he => by rw [h e he]; rfl
  have h0 : pre <+: [] → inherited pre = [] := fun h => by rw [List.prefix_nil.1 h]; rfl
  rcases h with h | h | h
  · unfold stringptr_tofile at h
    split at h
    · exact h0 h
    · cases fd with
      | none => exact h0 h
      | some d =>
        have := hw d (tofileLoop_inner d size answers 0)
        cases hx : tofileLoop d size answers 0 with
        | mk t r =>
          rw [hx] at this
          cases r with
          | none => exact inherited_shape this (.inl rfl) (by simpa [hx] using h)
          | some n => exact inherited_shape this (.inr rfl) (by simpa [hx] using h)
  · unfold stringptr_fromfile at h
    split at h
    · exact h0 h
    · cases fd with
      | none => exact h0 h
      | some d =>
        simp only at h
        split at h
        · exact inherited_shape (d := d) (t := []) (by simp) (.inr rfl) h
        · have : ∀ e ∈ Ev.malloc :: (fromfileLoop d size answers 0).1, Inner d e := by
            intro e he
            simp at he
            rcases he with rfl | he
            · trivial
            · rcases fromfileLoop_inner d size answers 0 e he with rfl | rfl
              · rfl
              · trivial
          cases hx : fromfileLoop d size answers 0 with
          | mk t r =>
            rw [hx] at this h
            cases r with
            | none => exact inherited_shape this (.inl rfl) (by simpa using h)
            | some n => exact inherited_shape this (.inr rfl) (by simpa using h)
  · unfold stringptrlist_fromfile at h
    cases fd with
    | none => exact h0 h
    | some d =>
      have : ∀ e ∈ (fromLoop d turns 0).1, Inner d e := fun e he => by
        rcases fromLoop_inner d turns 0 e he with rfl | rfl | rfl
        · rfl
        · rfl
        · trivial
      cases hx : fromLoop d turns 0 with
      | mk t r =>
        rw [hx] at this
        cases r with
        | none => exact inherited_shape this (.inl rfl) (by simpa [hx] using h)
        | some n =>
          simp only [hx] at h
          split at h
          · exact inherited_shape this (.inr rfl) h
          · exact inherited_shape this (.inl rfl) h

/-- C235. In stringptrlist_tofile it gets the descriptor exactly if it is started between the `open` and the `close`. -/
theorem handles_inherit_list (d : Nat) (sizes : List Nat) (answers : List (Option Nat)) (pre : List Ev)
    (h : pre <+: (stringptrlist_tofile (some d) sizes answers).1) :
    inherited pre = if Ev.open d false ∈ pre ∧ Ev.close d ∉ pre then [d] else [] := by
  have hl := listLoop_inner d sizes answers
  cases hx : listLoop d sizes answers with
  | mk t r =>
    rw [hx] at hl
    have hi : ∀ e ∈ t, Inner d e := fun e he => by rw [hl e he]; rfl
    have key : ∀ u, u = [] ∨ u = [Ev.close d] → pre <+: Ev.open d false :: (t ++ u) →
        inherited pre = if Ev.open d false ∈ pre ∧ Ev.close d ∉ pre then [d] else [] := by
      intro u hu ⟨post, hp⟩
      rcases prefix_shape hi hu hp.symm with rfl | ⟨t', rfl, ht⟩ | ⟨rfl, -⟩
      · rfl
      · rw [inherited, held_open (fun y hy => hi y (ht.subset hy)), if_pos]
        · rfl
        · refine ⟨by simp, ?_⟩
          intro hm
          simp at hm
          have := hl _ (ht.subset hm)
          simp at this
      · rw [inherited, held_closed hi, if_neg]
        · rfl
        · simp
    unfold stringptrlist_tofile at h
    cases r with
    | none => exact key [] (.inl rfl) (by simpa [hx] using h)
    | some n => exact key _ (.inr rfl) (by simpa [hx] using h)

/-- C235. Memory: after stringptr_fromfile one block is left if a string was returned and none after NULL. After
    stringptrlist_fromfile there is one for each line that was added, and at most one more, which only the failure of the
    list to grow for a line that had been copied leaves behind. -/
theorem handles_memory (fd : Option Nat) (mem : Bool) (size : Nat) (answers : List (Option Nat)) (turns : List Turn) :
    (∀ r, (stringptr_fromfile size fd mem answers).2 = some r → blocks (stringptr_fromfile size fd mem answers).1 = if r then 1 else 0) ∧
    (∀ r n, (stringptrlist_fromfile fd turns).2 = some (r, n) →
      blocks (stringptrlist_fromfile fd turns).1 = n ∨
      blocks (stringptrlist_fromfile fd turns).1 = n + 1 ∧ r = 0 ∧ ∃ a ∈ turns, a.copy = true ∧ a.grow = false) := by
  constructor
  · intro r
    unfold stringptr_fromfile
    split
    · intro h; simp at h; subst h; rfl
    · cases fd with
      | none => intro h; simp at h; subst h; rfl
      | some d =>
        simp only
        split
        · intro h; simp at h; subst h; simp [blocks]
        · have := fromfileLoop_blocks d size answers 0
          cases hx : fromfileLoop d size answers 0 with
          | mk t q =>
            rw [hx] at this
            cases q with
            | none => intro h; simp at h
            | some q =>
              intro h
              simp at h
              subst h
              have h1 := this q rfl
              simp only [blocks] at h1 ⊢
              cases q <;> simp at h1 ⊢ <;> omega
  · intro r n
    unfold stringptrlist_fromfile
    cases fd with
    | none => intro h; simp at h; simp [blocks, ← h.2]
    | some d =>
      have := fromLoop_blocks d turns 0
      cases hx : fromLoop d turns 0 with
      | mk t q =>
        rw [hx] at this
        cases q with
        | none => intro h; simp [hx] at h
        | some q =>
          intro h
          simp [hx] at h
          subst h
          have h1 := this r n rfl
          have hb : blocks (.open d true :: (t ++ if d > 0 then [Ev.close d] else [])) = blocks t := by
            split <;> simp [blocks]
          simp only [hx]
          rw [hb]
          simpa using h1

/-- C235. The calls belong to the same programs as the transfers of C78: for the same answers of the system stringptr_tofile
    returns the same number, and stringptr_fromfile (of a file that has not become shorter) a string or NULL alike. -/
theorem handles_same (p : Stringptr.SP) (d : Nat) (answers : List (Option Nat)) :
    (∀ file n, Wholefile.stringptr_tofile true true (some p) answers = .ok (file, n) →
      (stringptr_tofile true (some d) p.size answers).2 = some n) ∧
    (∀ size a data q, size ≤ data.length → Wholefile.stringptr_fromfile (some size) true a data answers = .ok q →
      ∃ mem, (stringptr_fromfile size (some d) mem answers).2 = some q.isSome) := by
  constructor
  · intro file n h
    simp only [Wholefile.stringptr_tofile, Bool.not_true, Bool.or_self, Bool.false_eq_true, if_false] at h
    cases hx : Wholefile.tofileLoop p answers 0 [] with
    | error e => rw [hx] at h; cases h
    | ok x =>
      rw [hx] at h
      simp only [ok_bind, pure_eq_ok] at h
      injection h with h
      injection h with h1 h2
      have := tofileLoop_same d answers 0 [] x.1 x.2 hx
      cases hy : tofileLoop d p.size answers 0 with
      | mk t r =>
        rw [hy] at this
        simp only at this
        subst this
        simp [stringptr_tofile, hy, h2]
  · intro size a data q hs h
    unfold Wholefile.stringptr_fromfile at h
    simp only [Wholefile.getfilesize, Option.getD_some, Bool.not_true, Bool.false_eq_true, if_false] at h
    by_cases h0 : size = 0
    · rw [if_pos h0] at h
      injection h with h
      exact ⟨true, by simp [stringptr_fromfile, h0, ← h]⟩
    · rw [if_neg h0] at h
      cases hn : Stringptr.new a size with
      | error e => rw [hn] at h; cases h
      | ok o =>
        rw [hn] at h
        cases o with
        | none =>
          simp only [ok_bind, pure_eq_ok] at h
          injection h with h
          exact ⟨false, by simp [stringptr_fromfile, h0, ← h]⟩
        | some o =>
          simp only [ok_bind] at h
          cases hx : Wholefile.fromfileLoop data size answers 0 o.buf with
          | error e => rw [hx] at h; cases h
          | ok x =>
            rw [hx] at h
            have := fromfileLoop_same d hs answers 0 o.buf x hx
            refine ⟨true, ?_⟩
            cases hy : fromfileLoop d size answers 0 with
            | mk t r =>
              rw [hy] at this
              simp only at this
              subst this
              cases x with
              | none =>
                simp only [ok_bind, pure_eq_ok] at h
                injection h with h
                simp [stringptr_fromfile, h0, hy, ← h]
              | some x =>
                simp only [ok_bind, pure_eq_ok] at h
                injection h with h
                simp [stringptr_fromfile, h0, hy, ← h]

/-- The list cannot grow for the second line: its copy is lost. The descriptor is closed. -/
example : stringptrlist_fromfile (some 3) [⟨some (bytes! "ab\ncd"), true, true, true⟩, ⟨some (bytes! "cd"), true, true, false⟩] =
    ([.open 3 true, .read 3, .seek 3, .malloc, .read 3, .malloc, .close 3], some (0, 1)) := by decide

/-- A read error after 65536 of 70000 bytes. -/
example : stringptr_fromfile 70000 (some 3) true [some 65536, none] = ([.open 3 true, .malloc, .read 3, .read 3, .free, .close 3], some false) := by
  decide +kernel

/-- A full disk, and a program started after the first write. -/
example : stringptrlist_tofile (some 4) [2, 3] [some 2, some 1, some 1] = ([.open 4 false, .write 4, .write 4, .write 4, .close 4], some 0) ∧
    inherited [.open 4 false, .write 4] = [4] := by decide

example : stringptr_tofile true (some 5) 3 [some 1, some 0, some 2] = ([.open 5 true, .write 5, .write 5, .write 5, .close 5], some 3) := by decide

end Ulz.Props

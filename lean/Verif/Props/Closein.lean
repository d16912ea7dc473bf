import Verif.Proofs.Closein
/-! C226: closing the input of a process oneself. -/
namespace Ulz.Props
open Ulz.Proc Ulz.Closein

/-- C226: a program that closes fds[0] itself and opens nothing before process_close loses nothing: the second close has no effect. -/
theorem closein_alone (t : Table) (p : Process) (h : p.fds ≠ []) : process_close (close t (input p)) p = process_close t p := by
  funext f
  unfold process_close
  rw [foldl_close, foldl_close]
  split
  · rfl
  · rename_i hf
    have : f ≠ input p := by
      rintro rfl
      apply hf
      unfold input
      cases hp : p.fds with
      | nil => exact absurd hp h
      | cons a l => simp
    simp [close, Table.set, this]

/-- C226: otherwise, of the files the program has opened in between, process_close closes exactly the one that got the number of fds[0],
    and leaves the others and what was open before. -/
theorem closein_exact (n : Nat) (t : Table) (a b c : Nat) (fa : List Action) (hb : t b ≠ none) (hc : t c ≠ none) (hab : a ≠ b) (hac : a ≠ c) (as : List Act)
    (t' : Table) (mine : List Nat) (hs : between n t ⟨[a, b, c], fa⟩ as = (t', mine)) :
    (∀ f ∈ mine, t' f ≠ none ∧ process_close t' ⟨[a, b, c], fa⟩ f = if f = a then none else t' f) ∧
    (∀ f, f ∉ mine → f ≠ a → f ≠ b → f ≠ c → process_close t' ⟨[a, b, c], fa⟩ f = t f) := by
  have hi := inv_between (n := n) t ⟨[a, b, c], fa⟩ as
  rw [hs] at hi
  have hin : input ⟨[a, b, c], fa⟩ = a := rfl
  rw [hin] at hi
  constructor
  · intro f hf
    obtain ⟨h1, h2⟩ := hi.mine f hf
    refine ⟨h1, ?_⟩
    show [a, b, c].foldl close t' f = _
    rw [foldl_close]
    by_cases hfa : f = a
    · simp [hfa]
    · have hT : t f = none := by
        rcases h2 with h2 | h2
        · exact absurd h2 hfa
        · exact h2
      have h3 : f ≠ b := by rintro rfl; exact hb hT
      have h4 : f ≠ c := by rintro rfl; exact hc hT
      simp [hfa, h3, h4]
  · intro f hf h1 h2 h3
    show [a, b, c].foldl close t' f = _
    rw [foldl_close, if_neg (by simp [h1, h2, h3])]
    have := hi.rest f hf
    rw [if_neg h1] at this
    exact this

/-- C226: a program that opens `k` files in between loses one of them exactly if `k` is more than the number of descriptors that were free
    below fds[0]. -/
theorem closein_lost (n : Nat) (t : Table) (a b c : Nat) (fa : List Action) (ha : a < n) (hb : t b ≠ none) (hc : t c ≠ none) (hab : a ≠ b) (hac : a ≠ c) (os : List Obj) :
    (∃ f ∈ (between n t ⟨[a, b, c], fa⟩ (os.map .open_)).2, process_close (between n t ⟨[a, b, c], fa⟩ (os.map .open_)).1 ⟨[a, b, c], fa⟩ f = none) ↔
      ((List.range a).filter fun f => (t f).isNone).length < os.length := by
  obtain ⟨h1, _⟩ := closein_exact n t a b c fa hb hc hab hac (os.map .open_) (between n t ⟨[a, b, c], fa⟩ (os.map .open_)).1 (between n t ⟨[a, b, c], fa⟩ (os.map .open_)).2 rfl
  have ho := opens (n := n) a ha os (close t a) [] (by simp [close, Table.set]) (by simp)
  have hfree : free (close t a) a = ((List.range a).filter fun f => (t f).isNone).length := by
    unfold free
    congr 1
    apply List.filter_congr
    intro x hx
    rw [List.mem_range] at hx
    simp only [close, Table.set]
    rw [if_neg (by omega)]
  rw [← hfree, ← ho]
  constructor
  · rintro ⟨f, hf, hn⟩
    obtain ⟨h2, h3⟩ := h1 f hf
    rw [h3] at hn
    split at hn
    · rename_i e
      subst e
      exact hf
    · exact absurd hn h2
  · intro h
    refine ⟨a, h, ?_⟩
    rw [(h1 a h).2, if_pos rfl]

/-- C226: setting fds[0] to -1 after closing it avoids this: no file is lost. -/
theorem closein_remedy (n : Nat) (t : Table) (a b c : Nat) (fa : List Action) (hb : t b ≠ none) (hc : t c ≠ none) (hab : a ≠ b) (hac : a ≠ c) (as : List Act)
    (t' : Table) (mine : List Nat) (hs : between n t ⟨[a, b, c], fa⟩ as = (t', mine)) :
    ∀ f ∈ mine, closeRest t' ⟨[a, b, c], fa⟩ f = t' f ∧ t' f ≠ none := by
  intro f hf
  have hi := inv_between (n := n) t ⟨[a, b, c], fa⟩ as
  rw [hs] at hi
  have hin : input ⟨[a, b, c], fa⟩ = a := rfl
  rw [hin] at hi
  obtain ⟨h1, h2⟩ := hi.mine f hf
  refine ⟨?_, h1⟩
  show [b, c].foldl close t' f = _
  rw [foldl_close]
  have h3 : f ≠ b := by
    rintro rfl
    rcases h2 with h2 | h2
    · exact hab h2.symm
    · exact hb h2
  have h4 : f ≠ c := by
    rintro rfl
    rcases h2 with h2 | h2
    · exact hac h2.symm
    · exact hc h2
  simp [h3, h4]

/-- C226: so a program with only the standard descriptors open that starts a process, closes fds[0] and opens two files loses the second. -/
theorem closein_fresh (n : Nat) (hn : 8 < n) (o1 o2 : Obj) :
    ∃ t p child, process_open ⟨true, fun _ => true, fun i => some (3 + 2 * i, 4 + 2 * i), true⟩ (fun f => if f < 3 then some (.other f) else none) = .ok ⟨t, some (p, child)⟩ ∧
      (between n t p [.open_ o1, .open_ o2]).2 = [3, 4] ∧
      process_close (between n t p [.open_ o1, .open_ o2]).1 p 3 = some o1 ∧ process_close (between n t p [.open_ o1, .open_ o2]).1 p 4 = none := by
  obtain ⟨m, rfl⟩ : ∃ m, n = m + 9 := ⟨n - 9, by omega⟩
  refine ⟨_, _, _, rfl, rfl, rfl, rfl⟩

/-! With the table of that program, fds is 4, 5, 7: one descriptor below 4 is free. -/
example : ((List.range 4).filter fun f => ((fun f => if f < 3 ∨ f = 4 ∨ f = 5 ∨ f = 7 then some (.other f) else none : Table) f).isNone).length = 1 := by decide

end Ulz.Props

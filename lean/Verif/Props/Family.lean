import Verif.Proofs.Family
/-! Property C165: several processes at the same time. -/
namespace Ulz.Props
open Ulz.Family Ulz.Family.Spec

/-- C165: who can write to the standard input of an open process `k`: the caller, and every process that is still open and was
    started later. -/
theorem process_writers {t : Table} (h0 : Start t) {s : Sys} (h : Reach t s) {k : Nat} (hk : Open s k) :
    (∃ f, s.table f = some (.pipe k 0 true)) ∧
    ∀ j kid, s.kids[j]? = some kid → kid.alive = true → ((∃ f, kid.table f = some (.pipe k 0 true)) ↔ k < j) := by
  have hinv := reach_inv h0 h
  obtain ⟨kk, hk1, hk2⟩ := hk
  obtain ⟨w, r1, r2, e1, e2⟩ := hinv.mine k kk hk1
  refine ⟨⟨w, (e2 hk2).1⟩, ?_⟩
  intro j kid hj ha
  constructor
  · rintro ⟨f, hf⟩
    rcases hinv.earlier j kid f k 0 true hj hf with h1 | ⟨_, h1 | h1 | h1⟩
    · exact h1
    · cases h1.2
    · cases h1.1
    · cases h1.1
  · intro hlt
    exact ⟨w, hinv.inherits j k kid kk w _ hlt hj hk1 hk2 e1⟩

/-- C165: so, if the programs run until the end of their input, process_close for `k` returns exactly if all processes that
    were opened after `k` have been closed before. Otherwise it waits for ever. -/
theorem process_close_returns_iff {t : Table} (h0 : Start t) {s : Sys} (h : Reach t s) {k : Nat} (hk : Open s k) :
    (∃ s', Closes s k s') ↔ ∀ j, k < j → ¬ Open s j := by
  have hinv := reach_inv h0 h
  constructor
  · rintro ⟨s', hc⟩
    obtain ⟨_, _, _, h3, _⟩ := closes_spec hinv hc
    exact h3
  · intro hlast
    obtain ⟨kid, hk1, hk2⟩ := hk
    have heof := (eof_iff hinv hk1 hk2).2 hlast
    obtain ⟨hkl, _⟩ := List.getElem?_eq_some_iff.1 hk1
    refine ⟨_, .mk (s' := ⟨(closeFds s kid.fds).table, (closeFds s kid.fds).kids.set k { kid with alive := false }⟩)
      (kid' := { kid with alive := false }) hk1 hk2
      (.tail .refl (.mk (s := closeFds s kid.fds) hk1 ?_ heof)) ?_ rfl⟩
    · rw [hinv.alive _ (List.mem_of_getElem? hk1)]; exact hk2
    · simp only [closeFds]
      rw [List.getElem?_set, if_pos rfl, if_pos hkl]

/-- C165: what process_close does to the others: nothing. -/
theorem process_close_effect {t : Table} (h0 : Start t) {s s' : Sys} (h : Reach t s) {k : Nat} (hc : Closes s k s') :
    (∀ j, Open s' j ↔ Open s j ∧ j ≠ k) ∧
    ∀ f, s'.table f = s.table f ∨ (∃ i b, s.table f = some (.pipe k i b)) ∧ s'.table f = none := by
  have hinv := reach_inv h0 h
  obtain ⟨kid, hk, ho, _, rfl⟩ := closes_spec hinv hc
  obtain ⟨hkl, hke⟩ := List.getElem?_eq_some_iff.1 hk
  constructor
  · intro j
    constructor
    · rintro ⟨x, hx, hx2⟩
      simp only at hx
      rw [List.getElem?_set] at hx
      by_cases hjk : k = j
      · rw [if_pos hjk, if_pos hkl] at hx
        cases hx
        cases hx2
      · rw [if_neg hjk] at hx
        exact ⟨⟨x, hx, hx2⟩, Ne.symm hjk⟩
    · rintro ⟨⟨x, hx, hx2⟩, hjk⟩
      exact ⟨x, by simp only; rw [List.getElem?_set, if_neg (Ne.symm hjk)]; exact hx, hx2⟩
  · intro f
    simp only [closeFds]
    by_cases hf : f ∈ kid.fds
    · right
      rw [if_pos hf]
      obtain ⟨w, r1, r2, g1, g2⟩ := hinv.mine k kid hk
      obtain ⟨g3, g4, g5, _⟩ := g2 ho
      rw [g1] at hf
      simp only [List.mem_cons, List.not_mem_nil, or_false] at hf
      rcases hf with rfl | rfl | rfl
      · exact ⟨⟨_, _, g3⟩, rfl⟩
      · exact ⟨⟨_, _, g4⟩, rfl⟩
      · exact ⟨⟨_, _, g5⟩, rfl⟩
    · rw [if_neg hf]; exact .inl rfl

/-- C165: after every history in which all processes were closed, the caller's descriptors are those it started with. -/
theorem process_all_closed {t : Table} (h0 : Start t) {s : Sys} (h : Reach t s) (hn : ∀ k, ¬ Open s k) : s.table = t := by
  have hinv := reach_inv h0 h
  funext f
  rcases hinv.rest f with h1 | ⟨k, kid, h1, h2, _⟩
  · exact h1
  · exact absurd ⟨kid, h1, h2⟩ (hn k)

/-- C165: closing in the opposite order of opening always works: whatever is open, there is a decreasing sequence that
    closes all, and the descriptors are as at the start. -/
theorem process_close_reverse {t : Table} (h0 : Start t) {s : Sys} (h : Reach t s) :
    ∃ ks s', ks.Pairwise (· > ·) ∧ (∀ k, k ∈ ks ↔ Open s k) ∧ CloseSeq s ks s' ∧ s'.table = t := by
  suffices H : ∀ (n : Nat) (s : Sys), Reach t s → (∀ j, n ≤ j → ¬ Open s j) →
      ∃ ks s', ks.Pairwise (· > ·) ∧ (∀ k, k ∈ ks ↔ Open s k) ∧ CloseSeq s ks s' ∧ s'.table = t by
    refine H s.kids.length s h ?_
    rintro j hj ⟨kid, h1, _⟩
    have := (List.getElem?_eq_some_iff.1 h1).1
    omega
  intro n
  induction n with
  | zero =>
    intro s hr hn
    exact ⟨[], s, .nil, fun k => by simpa using hn k (by omega), .nil, process_all_closed h0 hr (fun k => hn k (by omega))⟩
  | succ n ih =>
    intro s hr hn
    by_cases ho : Open s n
    · obtain ⟨s1, hc⟩ := (process_close_returns_iff h0 hr ho).2 (fun j hj => hn j (by omega))
      obtain ⟨he, _⟩ := process_close_effect h0 hr hc
      obtain ⟨ks, s', h1, h2, h3, h4⟩ := ih s1 (.closes hr hc) (by
        intro j hj ho'
        obtain ⟨ho2, hne⟩ := (he j).1 ho'
        exact hn j (by omega) ho2)
      refine ⟨n :: ks, s', List.pairwise_cons.2 ⟨?_, h1⟩, ?_, .cons hc h3, h4⟩
      · intro k hk
        obtain ⟨ho2, hne⟩ := (he k).1 ((h2 k).1 hk)
        have : ¬ n + 1 ≤ k := fun hle => hn k hle ho2
        show k < n
        omega
      · intro k
        rw [List.mem_cons, h2 k, he k]
        constructor
        · rintro (rfl | h)
          · exact ho
          · exact h.1
        · intro h
          by_cases hkn : k = n
          · exact .inl hkn
          · exact .inr ⟨h, hkn⟩
    · refine ih s hr ?_
      intro j hj hoj
      by_cases hjn : j = n
      · subst hjn; exact ho hoj
      · exact hn j (by omega) hoj

/-- Answers that give pipe `i` the descriptors `b + 2 i` and `b + 2 i + 1`. -/
def answersFrom (b : Nat) : Proc.Answers := ⟨true, fun _ => true, fun i => if i < 3 then some (b + 2 * i, b + 2 * i + 1) else none, true⟩

theorem legal_from {b : Nat} {T : Proc.Table} (h : ∀ f, b ≤ f → T f = none) : Proc.Spec.Legal (answersFrom b) T := by
  constructor
  · intro i r w hp
    simp only [answersFrom] at hp
    split at hp
    · simp only [Option.some.injEq, Prod.mk.injEq] at hp
      obtain ⟨rfl, rfl⟩ := hp
      exact ⟨h _ (by omega), h _ (by omega), by omega⟩
    · cases hp
  · intro i j r w r' w' hij hp hp'
    simp only [answersFrom] at hp hp'
    split at hp
    · split at hp'
      · simp only [Option.some.injEq, Prod.mk.injEq] at hp hp'
        omega
      · cases hp'
    · cases hp

/-- Two processes are open: the hypotheses are met, the second can be closed and the first cannot. -/
example : ∃ t s, Start t ∧ Reach t s ∧ Open s 0 ∧ Open s 1 ∧ (∃ s', Closes s 1 s') ∧ ¬ ∃ s', Closes s 0 s' := by
  have hs : Start (fun f => if f < 3 then some (.other f) else none) := by
    refine ⟨by simp, ?_⟩
    intro f k i b
    simp only
    split <;> simp
  have r0 := Reach.start (t := fun f => if f < 3 then some (.other f) else none)
  have l1 : Proc.Spec.Legal (answersFrom 3) (hide fun f => if f < 3 then some (.other f) else none) := by
    refine legal_from fun f hf => ?_
    rw [hide_none, if_neg (by omega)]
  obtain ⟨⟨s1, b1⟩, o1⟩ : ∃ x, open_ (answersFrom 3) ⟨fun f => if f < 3 then some (.other f) else none, []⟩ = .ok x := ⟨_, rfl⟩
  have hb1 : b1 = true := by cases o1; rfl
  have r1 := Reach.opens r0 l1 rfl o1
  rcases open_spec l1 rfl (reach_inv hs r0).std o1 with ⟨hb, _⟩ | ⟨_, w0, x1, x2, child, _, _, _, _, _, _, hk, _⟩
  · rw [hb1] at hb; cases hb
  have l2 : Proc.Spec.Legal (answersFrom 9) (hide s1.table) := by
    refine legal_from fun f hf => ?_
    rw [hide_none]
    rcases (reach_inv hs r1).rest f with h1 | ⟨k, kid, h1, h2, h3⟩
    · rw [h1, if_neg (by omega)]
    · exfalso
      cases o1
      match k, h1 with
      | 0, h1 => cases h1; simp [Proc.parentEnd] at h3; omega
      | k + 1, h1 => simp at h1
  obtain ⟨⟨s2, b2⟩, o2⟩ : ∃ x, open_ (answersFrom 9) s1 = .ok x := by cases o1; exact ⟨_, rfl⟩
  have hb2 : b2 = true := by cases o1; cases o2; rfl
  have r2 := Reach.opens r1 l2 rfl o2
  rcases open_spec l2 rfl (reach_inv hs r1).std o2 with ⟨hb, _⟩ | ⟨_, _, _, _, child2, _, _, _, _, _, _, hk2, _⟩
  · rw [hb2] at hb; cases hb
  have hl1 : s1.kids.length = 1 := by rw [hk]; rfl
  have op0 : Open s2 0 := ⟨_, by rw [hk2, hk]; rfl, rfl⟩
  have op1 : Open s2 1 := ⟨_, by rw [hk2, hk]; rfl, rfl⟩
  refine ⟨_, s2, hs, r2, op0, op1, ?_, ?_⟩
  · refine (process_close_returns_iff hs r2 op1).2 ?_
    rintro j hj ⟨kid, h1, _⟩
    have := (List.getElem?_eq_some_iff.1 h1).1
    rw [hk2, List.length_append, hl1] at this
    simp at this
    omega
  · intro hc
    exact (process_close_returns_iff hs r2 op0).1 hc 1 (by omega) op1

end Ulz.Props

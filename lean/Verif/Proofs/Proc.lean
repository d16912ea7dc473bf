import Verif.Spec.Proc
import Verif.Proofs.Base
/-! Lemmas about processes. -/
namespace Ulz.Proc
open Spec

theorem set_apply (t : Table) (fd f : Nat) (o : Option Obj) : t.set fd o f = if f = fd then o else t f := rfl
theorem close_apply (t : Table) (fd f : Nat) : close t fd f = if f = fd then none else t f := rfl

theorem closeAll_apply : ∀ (pipes : List (Nat × Nat)) (t : Table) (f : Nat),
    (f ≠ 0 → (∃ p ∈ pipes, f = p.1 ∨ f = p.2) → closeAll pipes t f = none) ∧
    ((f = 0 ∨ ¬ ∃ p ∈ pipes, f = p.1 ∨ f = p.2) → closeAll pipes t f = t f) := by
  intro pipes
  induction pipes with
  | nil => intro t f; exact ⟨fun _ ⟨p, h, _⟩ => absurd h (by simp), fun _ => rfl⟩
  | cons p ps ih =>
    intro t f
    obtain ⟨r, w⟩ := p
    unfold closeAll
    simp only
    generalize ht : (if w ≠ 0 then close (if r ≠ 0 then close t r else t) w else if r ≠ 0 then close t r else t) = t'
    obtain ⟨ih1, ih2⟩ := ih t' f
    have key : t' f = if f ≠ 0 ∧ (f = r ∨ f = w) then none else t f := by
      rw [← ht]
      by_cases h1 : w ≠ 0 <;> by_cases h2 : r ≠ 0 <;> simp only [h1, h2, if_true, if_false, close_apply, ne_eq, not_false_eq_true, not_true_eq_false]
      all_goals (by_cases h3 : f = w <;> by_cases h4 : f = r <;> by_cases h5 : f = 0 <;> simp_all)
    constructor
    · intro h0 ⟨p, hp, hf⟩
      by_cases hin : ∃ p ∈ ps, f = p.1 ∨ f = p.2
      · exact ih1 h0 hin
      · rw [ih2 (Or.inr hin), key, if_pos]
        rcases List.mem_cons.1 hp with rfl | hp
        · exact ⟨h0, hf⟩
        · exact absurd ⟨p, hp, hf⟩ hin
    · intro h
      rcases h with rfl | h
      · rw [ih2 (Or.inl rfl), key, if_neg (by simp)]
      · rw [ih2 (Or.inr fun ⟨p, hp, hf⟩ => h ⟨p, List.mem_cons_of_mem _ hp, hf⟩), key, if_neg]
        rintro ⟨_, hf⟩
        exact h ⟨(r, w), List.mem_cons_self, hf⟩

/-- What the loop of pipes leaves behind. -/
theorem pipeLoop_inv (ans : Answers) : ∀ (is : List Nat) (t0 t : Table) (pipes : List (Nat × Nat)) (done : Nat → Prop),
    (∀ i ∈ is, ¬ done i) → (∀ i, i ∈ is → i < pipes.length) → is.Nodup → Legal ans t0 →
    (∀ f, t f = t0 f ∨ (t0 f = none ∧ t f ≠ none ∧ (∃ i, done i ∧ Uses ans i f) ∧ (f = 0 ∨ ∃ p ∈ pipes, f = p.1 ∨ f = p.2))) →
    (∀ i ∈ is, pipes[i]? = some (0, 0)) →
    (∀ f, f ≠ 0 → (∃ p ∈ pipes, f = p.1 ∨ f = p.2) → t0 f = none) →
    let x := pipeLoop ans is t pipes
    (∀ f, x.1 f = t0 f ∨ (t0 f = none ∧ x.1 f ≠ none ∧ (∃ i, (done i ∨ i ∈ is) ∧ Uses ans i f) ∧ (f = 0 ∨ ∃ p ∈ x.2.1, f = p.1 ∨ f = p.2))) ∧
    (∀ f, f ≠ 0 → (∃ p ∈ x.2.1, f = p.1 ∨ f = p.2) → t0 f = none) := by
  intro is
  induction is with
  | nil =>
    intro t0 t pipes done _ _ _ _ h1 _ h2
    refine ⟨fun f => ?_, h2⟩
    rcases h1 f with h | ⟨a, b, ⟨i, hi, hu⟩, d⟩
    · exact Or.inl h
    · exact Or.inr ⟨a, b, ⟨i, Or.inl hi, hu⟩, d⟩
  | cons i is ih =>
    intro t0 t pipes done hd hlen hn hl h1 hz h2
    simp only
    unfold pipeLoop
    cases hp : ans.pipe i with
    | none =>
      refine ⟨fun f => ?_, h2⟩
      rcases h1 f with h | ⟨a, b, ⟨i, hi, hu⟩, d⟩
      · exact Or.inl h
      · exact Or.inr ⟨a, b, ⟨i, Or.inl hi, hu⟩, d⟩
    | some rw' =>
      obtain ⟨r, w⟩ := rw'
      obtain ⟨f1, f2, f3⟩ := hl.fresh i r w hp
      simp only
      have hin := hlen i List.mem_cons_self
      have hz0 := hz i List.mem_cons_self
      -- membership in the new array
      have mem_new : ∀ p ∈ pipes, p = (0, 0) ∨ p ∈ pipes.set i (r, w) := by
        intro p hp
        obtain ⟨j, hj, rfl⟩ := List.getElem_of_mem hp
        by_cases e : j = i
        · subst e
          rw [List.getElem?_eq_getElem hj] at hz0
          exact Or.inl (by injection hz0)
        · right
          have : (pipes.set i (r, w))[j]? = some pipes[j] := by
            rw [List.getElem?_set_ne (Ne.symm e), List.getElem?_eq_getElem hj]
          exact List.mem_of_getElem? this
      have mem_self : (r, w) ∈ pipes.set i (r, w) := List.mem_set hin (r, w)
      have := ih t0 ((t.set r (some (.readEnd i))).set w (some (.writeEnd i))) (pipes.set i (r, w)) (fun j => done j ∨ j = i) ?_ ?_ ?_ hl ?_ ?_ ?_
      · obtain ⟨k1, k2⟩ := this
        refine ⟨fun f => ?_, k2⟩
        rcases k1 f with h | ⟨a, b, ⟨j, hj, hu⟩, d⟩
        · exact Or.inl h
        · refine Or.inr ⟨a, b, ⟨j, ?_, hu⟩, d⟩
          rcases hj with (hj | rfl) | hj
          · exact Or.inl hj
          · exact Or.inr List.mem_cons_self
          · exact Or.inr (List.mem_cons_of_mem _ hj)
      · intro j hj h
        rcases h with h | rfl
        · exact hd j (List.mem_cons_of_mem _ hj) h
        · exact (List.nodup_cons.1 hn).1 hj
      · intro j hj
        rw [List.length_set]
        exact hlen j (List.mem_cons_of_mem _ hj)
      · exact (List.nodup_cons.1 hn).2
      · intro f
        rw [set_apply, set_apply]
        by_cases e1 : f = w
        · subst e1
          rw [if_pos rfl]
          exact Or.inr ⟨f2, by simp, ⟨i, Or.inr rfl, r, f, hp, Or.inr rfl⟩, Or.inr ⟨_, mem_self, Or.inr rfl⟩⟩
        · rw [if_neg e1]
          by_cases e2 : f = r
          · subst e2
            rw [if_pos rfl]
            exact Or.inr ⟨f1, by simp, ⟨i, Or.inr rfl, f, w, hp, Or.inl rfl⟩, Or.inr ⟨_, mem_self, Or.inl rfl⟩⟩
          · rw [if_neg e2]
            rcases h1 f with h | ⟨a, b, ⟨j, hj, hu⟩, h0 | ⟨p, hp', hf⟩⟩
            · exact Or.inl h
            · exact Or.inr ⟨a, b, ⟨j, Or.inl hj, hu⟩, Or.inl h0⟩
            · refine Or.inr ⟨a, b, ⟨j, Or.inl hj, hu⟩, ?_⟩
              rcases mem_new p hp' with rfl | hm
              · left; rcases hf with hf | hf <;> exact hf
              · exact Or.inr ⟨p, hm, hf⟩
      · intro j hj
        have e : i ≠ j := fun h => (List.nodup_cons.1 hn).1 (h ▸ hj)
        rw [List.getElem?_set_ne e]
        exact hz j (List.mem_cons_of_mem _ hj)
      · intro f hf ⟨p, hp', h⟩
        rcases List.mem_or_eq_of_mem_set hp' with hm | rfl
        · exact h2 f hf ⟨p, hm, h⟩
        · rcases h with rfl | rfl
          · exact f1
          · exact f2


/-- Failing gives all back but descriptor 0. -/
theorem closeAll_pipes (ans : Answers) (t : Table) (hl : Legal ans t) :
    let x := pipeLoop ans [0, 1, 2] t [(0, 0), (0, 0), (0, 0)]
    (∀ f, f ≠ 0 → closeAll x.2.1 x.1 f = t f) ∧ (closeAll x.2.1 x.1 0 = t 0 ∨ (t 0 = none ∧ closeAll x.2.1 x.1 0 ≠ none ∧ ∃ i, i < 3 ∧ Uses ans i 0)) := by
  have key := pipeLoop_inv ans [0, 1, 2] t t [(0, 0), (0, 0), (0, 0)] (fun _ => False) (by simp) (by simp) (by decide) hl (fun f => Or.inl rfl) (by simp) ?_
  · simp only at key ⊢
    generalize pipeLoop ans [0, 1, 2] t [(0, 0), (0, 0), (0, 0)] = x at *
    obtain ⟨k1, k2⟩ := key
    constructor
    · intro f hf
      obtain ⟨c1, c2⟩ := closeAll_apply x.2.1 x.1 f
      by_cases h : ∃ p ∈ x.2.1, f = p.1 ∨ f = p.2
      · rw [c1 hf h, k2 f hf h]
      · rw [c2 (Or.inr h)]
        rcases k1 f with h' | ⟨_, _, _, h0 | h'⟩
        · exact h'
        · exact absurd h0 hf
        · exact absurd h' h
    · rw [(closeAll_apply x.2.1 x.1 0).2 (Or.inl rfl)]
      rcases k1 0 with h' | ⟨a, b, ⟨i, hi, hu⟩, _⟩
      · exact Or.inl h'
      · refine Or.inr ⟨a, b, i, ?_, hu⟩
        rcases hi with hi | hi
        · exact hi.elim
        · simp at hi; omega
  · rintro f hf ⟨p, hp, h⟩
    simp at hp
    subst hp
    rcases h with h | h <;> exact absurd h hf

theorem perform_spec (T : Table) (r0 w0 r1 w1 r2 w2 : Nat) (o0 o1 o2 : Obj) (h0 : T r0 = some o0) (h1 : T w1 = some o1) (h2 : T w2 = some o2)
    (g : ∀ f ∈ [r0, w0, r1, w1, r2, w2], f ≠ 0 ∧ f ≠ 1 ∧ f ≠ 2) :
    ∃ child, perform T [.close 0, .close 1, .close 2, .dup2 r0 0, .dup2 w1 1, .dup2 w2 2, .close r0, .close w0, .close r1, .close w1, .close r2, .close w2] = some child ∧
      child 0 = some o0 ∧ child 1 = some o1 ∧ child 2 = some o2 ∧
      ∀ f, f ≠ 0 → f ≠ 1 → f ≠ 2 → child f = if f ∈ [r0, w0, r1, w1, r2, w2] then none else T f := by
  obtain ⟨g1, g2, g3⟩ := g r0 (by simp)
  obtain ⟨g4, g5, g6⟩ := g w0 (by simp)
  obtain ⟨g7, g8, g9⟩ := g r1 (by simp)
  obtain ⟨i1, i2, i3⟩ := g w1 (by simp)
  obtain ⟨i4, i5, i6⟩ := g r2 (by simp)
  obtain ⟨i7, i8, i9⟩ := g w2 (by simp)
  simp only [perform, close_apply, set_apply, g1, g2, g3, g4, g5, g6, g7, g8, g9, i1, i2, i3, i4, i5, i6, i7, i8, i9, if_false, h0, h1, h2]
  refine ⟨_, rfl, ?_, ?_, ?_, ?_⟩
  · simp only [close_apply, set_apply, Ne.symm g1, Ne.symm g4, Ne.symm g7, Ne.symm i1, Ne.symm i4, Ne.symm i7, if_false, if_true]
    rw [if_neg (by decide), if_neg (by decide)]
  · simp only [close_apply, set_apply, Ne.symm g2, Ne.symm g5, Ne.symm g8, Ne.symm i2, Ne.symm i5, Ne.symm i8, if_false, if_true]
    rw [if_neg (by decide)]
  · simp only [close_apply, set_apply, Ne.symm g3, Ne.symm g6, Ne.symm g9, Ne.symm i3, Ne.symm i6, Ne.symm i9, if_false, if_true]
  · intro f k0 k1 k2
    simp only [close_apply, set_apply, k0, k1, k2, if_false, List.mem_cons, List.not_mem_nil, or_false]
    by_cases e0 : f = w2
    · simp only [e0, if_true, or_true, true_or]
    rw [if_neg e0]
    by_cases e1 : f = r2
    · simp only [e1, if_true, or_true, true_or]
    rw [if_neg e1]
    by_cases e2 : f = w1
    · simp only [e2, if_true, or_true, true_or]
    rw [if_neg e2]
    by_cases e3 : f = r1
    · simp only [e3, if_true, or_true, true_or]
    rw [if_neg e3]
    by_cases e4 : f = w0
    · simp only [e4, if_true, or_true, true_or]
    rw [if_neg e4]
    by_cases e5 : f = r0
    · simp only [e5, if_true, or_true, true_or]
    rw [if_neg e5]
    rw [if_neg]
    rintro (h | h | h | h | h | h) <;> contradiction

/-- A pipe with descriptor 0. -/
theorem pipeLoop_stdin (ans : Answers) (t : Table) (hl : Legal ans t) (w0 : Nat) (h0 : ans.pipe 0 = some (0, w0)) :
    (pipeLoop ans [0, 1, 2] t [(0, 0), (0, 0), (0, 0)]).1 0 = some (.readEnd 0) ∧
    childEnd (pipeLoop ans [0, 1, 2] t [(0, 0), (0, 0), (0, 0)]).2.1 0 = 0 := by
  obtain ⟨_, _, a3⟩ := hl.fresh 0 0 w0 h0
  cases h1 : ans.pipe 1 with
  | none =>
    simp only [pipeLoop, h0, h1, set_apply, a3, if_false, if_true]
    exact ⟨trivial, rfl⟩
  | some p1 =>
    obtain ⟨r1, w1⟩ := p1
    obtain ⟨d1, d2, _, _⟩ := hl.apart 0 1 _ _ _ _ (by decide) h0 h1
    cases h2 : ans.pipe 2 with
    | none =>
      simp only [pipeLoop, h0, h1, h2, set_apply, a3, d1, d2, if_false, if_true]
      exact ⟨trivial, rfl⟩
    | some p2 =>
      obtain ⟨r2, w2⟩ := p2
      obtain ⟨e1, e2, _, _⟩ := hl.apart 0 2 _ _ _ _ (by decide) h0 h2
      simp only [pipeLoop, h0, h1, h2, set_apply, a3, d1, d2, e1, e2, if_false, if_true]
      exact ⟨trivial, rfl⟩

theorem add_eq (ans : Answers) : ∀ (new : List Action) (k : Nat) (fa fa' : List Action), add ans k new fa = (fa', true) → fa' = fa ++ new := by
  intro new
  induction new with
  | nil => intro k fa fa' h; unfold add at h; injection h with h; simp [h]
  | cons a new ih =>
    intro k fa fa' h
    unfold add at h
    split at h
    · rw [ih _ _ _ h]; simp
    · simp at h

/-! ### daemonize -/

theorem closeDown_apply : ∀ (n : Nat) (t : Table) (f : Nat), closeDown t n f = if f ≤ n then none else t f := by
  intro n
  induction n with
  | zero =>
    intro t f
    unfold closeDown
    rw [close_apply]
    simp only [Nat.le_zero]
  | succ n ih =>
    intro t f
    unfold closeDown
    rw [ih, close_apply]
    by_cases h : f ≤ n
    · rw [if_pos h, if_pos (by omega)]
    · rw [if_neg h]
      by_cases h' : f = n + 1
      · rw [if_pos h', if_pos (by omega)]
      · rw [if_neg h', if_neg (by omega)]

theorem lowest_spec (t : Table) : ∀ (n f k : Nat), f ≤ k → k < f + n → (∀ i, f ≤ i → i < k → t i ≠ none) → t k = none → lowest t n f = some k := by
  intro n
  induction n with
  | zero => intro f k _ h; omega
  | succ n ih =>
    intro f k h1 h2 h3 h4
    unfold lowest
    by_cases e : f = k
    · subst e; rw [h4]
    · have := h3 f (Nat.le_refl _) (by omega)
      cases h : t f with
      | none => exact absurd h this
      | some o =>
        simp only
        exact ih (f + 1) k (by omega) (by omega) (fun i hi hk => h3 i (by omega) hk) h4

theorem lowest_none (t : Table) : ∀ (n f : Nat), (∀ i, f ≤ i → i < f + n → t i ≠ none) → lowest t n f = none := by
  intro n
  induction n with
  | zero => intro f _; rfl
  | succ n ih =>
    intro f h
    unfold lowest
    cases h' : t f with
    | none => exact absurd h' (h f (Nat.le_refl _) (by omega))
    | some o =>
      simp only
      exact ih (f + 1) (fun i hi hk => h i (by omega) (by omega))

/-- With the first `k` open, on `o`, and the others up to `n` not, the next is number `k`. -/
theorem acquire_spec (t0 : Table) (n k : Nat) (o : Obj) (t : Table) (h : ∀ f, t f = if f < k ∧ f < n then some o else if f ≤ n then none else t0 f) :
    ∀ f, (acquire n t o).1 f = if f < k + 1 ∧ f < n then some o else if f ≤ n then none else t0 f := by
  intro f
  unfold acquire
  by_cases c : k < n
  · rw [lowest_spec t n 0 k (by omega) (by omega) (by intro i _ hi; rw [h, if_pos (by omega)]; simp) (by rw [h, if_neg (by omega), if_pos (by omega)])]
    simp only [set_apply]
    by_cases e : f = k
    · rw [if_pos e, if_pos (by omega)]
    · rw [if_neg e, h]
      by_cases e' : f < k ∧ f < n
      · rw [if_pos e', if_pos (by omega)]
      · rw [if_neg e', if_neg (show ¬ (f < k + 1 ∧ f < n) by omega)]
  · rw [lowest_none t n 0 (by intro i _ hi; rw [h, if_pos (by omega)]; simp)]
    simp only
    rw [h]
    by_cases e' : f < k ∧ f < n
    · rw [if_pos e', if_pos (by omega)]
    · rw [if_neg e', if_neg (show ¬ (f < k + 1 ∧ f < n) by omega)]

end Ulz.Proc

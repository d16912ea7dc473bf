import Verif.Model.Closein
/-! Lemmas for C226. -/
namespace Ulz.Closein
open Ulz.Proc

theorem lowest_spec {t : Table} : ∀ {n f g : Nat}, lowest t n f = some g → f ≤ g ∧ g < f + n ∧ t g = none ∧ ∀ h, f ≤ h → h < g → t h ≠ none
  | 0, _, _, h => by cases h
  | n + 1, f, g, h => by
    unfold lowest at h
    cases ht : t f with
    | none =>
      rw [ht] at h
      have h : f = g := Option.some.inj h
      subst h
      exact ⟨Nat.le_refl _, by omega, ht, fun h h1 h2 => by omega⟩
    | some o =>
      rw [ht] at h
      obtain ⟨h1, h2, h3, h4⟩ := lowest_spec (n := n) (f := f + 1) h
      refine ⟨by omega, by omega, h3, fun k k1 k2 => ?_⟩
      by_cases hk : k = f
      · rw [hk, ht]; simp
      · exact h4 k (by omega) k2

theorem lowest_exists {t : Table} : ∀ {n f g : Nat}, f ≤ g → g < f + n → t g = none → ∃ k, lowest t n f = some k
  | 0, _, _, _, _, _ => by omega
  | n + 1, f, g, h1, h2, h3 => by
    unfold lowest
    cases ht : t f with
    | none => exact ⟨f, rfl⟩
    | some o =>
      have : g ≠ f := fun e => by rw [e, ht] at h3; cases h3
      exact lowest_exists (n := n) (f := f + 1) (g := g) (by omega) (by omega) h3

/-- What holds between the two closes; `T` is the table before. -/
structure Inv (T : Table) (a : Nat) (s : Table × List Nat) : Prop where
  mine : ∀ f ∈ s.2, s.1 f ≠ none ∧ (f = a ∨ T f = none)
  nodup : s.2.Nodup
  rest : ∀ f, f ∉ s.2 → s.1 f = if f = a then none else T f

theorem inv_act {T : Table} {a n : Nat} {s : Table × List Nat} (h : Inv T a s) (x : Act) : Inv T a (act n s x) := by
  cases x with
  | open_ o =>
    simp only [act, acquire]
    cases hl : lowest s.1 n 0 with
    | none => exact ⟨h.mine, h.nodup, h.rest⟩
    | some g =>
      obtain ⟨_, _, h3, _⟩ := lowest_spec hl
      have hg : g ∉ s.2 := fun hm => (h.mine g hm).1 h3
      have hr := h.rest g hg
      simp only
      refine ⟨fun f hf => ?_, ?_, fun f hf => ?_⟩
      · rw [List.mem_append, List.mem_singleton] at hf
        simp only [Table.set]
        by_cases hfg : f = g
        · rw [if_pos hfg]
          refine ⟨by simp, ?_⟩
          rw [hfg]
          by_cases hga : g = a
          · exact .inl hga
          · rw [if_neg hga, h3] at hr
            exact .inr hr.symm
        · rw [if_neg hfg]
          rcases hf with hf | hf
          · exact h.mine f hf
          · exact absurd hf hfg
      · rw [List.nodup_append]
        refine ⟨h.nodup, by simp, fun x hx y hy => ?_⟩
        rw [List.mem_singleton] at hy
        rintro rfl
        exact hg (hy ▸ hx)
      · rw [List.mem_append, List.mem_singleton] at hf
        simp only [Table.set]
        rw [if_neg (fun e => hf (.inr e))]
        exact h.rest f (fun e => hf (.inl e))
  | close_ fd =>
    simp only [act]
    by_cases hm : fd ∈ s.2
    · rw [if_pos hm]
      have hne := (h.mine fd hm).2
      refine ⟨fun f hf => ?_, h.nodup.erase _, fun f hf => ?_⟩
      · rw [h.nodup.mem_erase_iff] at hf
        simp only [close, Table.set]
        rw [if_neg hf.1]
        exact h.mine f hf.2
      · rw [h.nodup.mem_erase_iff] at hf
        simp only [close, Table.set]
        by_cases hff : f = fd
        · rw [if_pos hff, hff]
          rcases hne with h1 | h1
          · rw [if_pos h1]
          · rw [h1]; simp
        · rw [if_neg hff]
          exact h.rest f (fun e => hf ⟨hff, e⟩)
    · rw [if_neg hm]
      exact h

theorem inv_between {n : Nat} (T : Table) (p : Process) (as : List Act) : Inv T (input p) (between n T p as) := by
  unfold between
  have h0 : Inv T (input p) (close T (input p), []) := ⟨by simp, List.nodup_nil, fun f _ => rfl⟩
  revert h0
  generalize ((close T (input p), []) : Table × List Nat) = s
  intro h0
  induction as generalizing s with
  | nil => exact h0
  | cons x as ih => exact ih _ (inv_act h0 x)

theorem foldl_close : ∀ (fds : List Nat) (t : Table) (f : Nat), fds.foldl close t f = if f ∈ fds then none else t f
  | [], t, f => by simp
  | g :: fds, t, f => by
    rw [List.foldl_cons, foldl_close fds]
    by_cases h : f ∈ fds
    · simp [h]
    · by_cases hg : f = g
      · subst hg; simp [h, close, Table.set]
      · simp [h, hg, close, Table.set]

/-- The number of free descriptors below `a`. -/
def free (t : Table) (a : Nat) : Nat := ((List.range a).filter fun f => (t f).isNone).length

theorem free_set {t : Table} {a g : Nat} {o : Obj} (hg : t g = none) (ha : g < a) : free (t.set g (some o)) a + 1 = free t a := by
  unfold free
  induction a with
  | zero => omega
  | succ a ih =>
    rw [List.range_succ, List.filter_append, List.filter_append, List.length_append, List.length_append]
    by_cases hga : g = a
    · subst hga
      have e : (List.range g).filter (fun f => ((t.set g (some o)) f).isNone) = (List.range g).filter (fun f => (t f).isNone) := by
        apply List.filter_congr
        intro x hx
        rw [List.mem_range] at hx
        simp only [Table.set]
        rw [if_neg (by omega)]
      rw [e]
      simp [Table.set, hg]
    · have := ih (by omega)
      have e : (t.set g (some o)) a = t a := by simp only [Table.set]; rw [if_neg (fun h => hga h.symm)]
      simp only [List.filter_cons, List.filter_nil, e]
      omega

/-- Opening `k` files takes the free descriptors from below. -/
theorem opens {n : Nat} (a : Nat) (ha : a < n) : ∀ (os : List Obj) (t : Table) (m : List Nat), t a = none → a ∉ m →
    (a ∈ ((os.map Act.open_).foldl (act n) (t, m)).2 ↔ free t a < os.length)
  | [], t, m, h1, h2 => by simp [h2]
  | o :: os, t, m, h1, h2 => by
    obtain ⟨g, hl⟩ := lowest_exists (t := t) (n := n) (f := 0) (g := a) (by omega) (by omega) h1
    obtain ⟨_, _, h3, h4⟩ := lowest_spec hl
    have hga : g ≤ a := by
      rcases Nat.lt_or_ge a g with h | h
      · exact absurd h1 (h4 a (by omega) h)
      · exact h
    rw [List.map_cons, List.foldl_cons]
    have e : act n (t, m) (.open_ o) = (t.set g (some o), m ++ [g]) := by simp only [act, acquire, hl]
    rw [e]
    by_cases hg : g = a
    · subst hg
      have hf : free t g = 0 := by
        unfold free
        rw [List.length_eq_zero_iff, List.filter_eq_nil_iff]
        intro x hx
        rw [List.mem_range] at hx
        have := h4 x (by omega) hx
        simpa using this
      rw [hf]
      have hk : ∀ (os : List Obj) (t : Table) (m : List Nat), g ∈ m → g ∈ ((os.map Act.open_).foldl (act n) (t, m)).2 := by
        intro os
        induction os with
        | nil => intro t m h; exact h
        | cons o os ih =>
          intro t m h
          rw [List.map_cons, List.foldl_cons]
          simp only [act, acquire]
          cases lowest t n 0 with
          | none => exact ih _ _ h
          | some g' => exact ih _ _ (by simp [h])
      exact ⟨fun _ => by simp, fun _ => hk _ _ _ (by simp)⟩
    · have h1' : (t.set g (some o)) a = none := by simp only [Table.set]; rw [if_neg (fun h => hg h.symm)]; exact h1
      rw [opens a ha os _ _ h1' (by simp [h2]; exact fun h => hg h.symm), List.length_cons]
      have := free_set (o := o) h3 (show g < a by omega)
      omega

end Ulz.Closein

import Verif.Proofs.Ssalloc
/-! Properties C70 and C71: the single size allocator. -/
namespace Ulz.Props
open Ulz.Ssalloc Ulz.Ssalloc.Spec

/-- C70: for every pool and every history of allocations and frees (of any pointer at or behind the start of the pool, live or
    not, and harmless ones before it), the calls have no undefined behaviour and do what the specification says. -/
theorem ssalloc_history (M E : Nat) (hM : 0 < M) (hM' : M < 2 ^ 64) (hE : 0 < E) (ops : List Op) (h : ∀ o ∈ ops, OpOk E o) :
    ∃ p live rs, run M E (ssa_init M) ops = .ok (p, rs) ∧ Steps M E [] ops live rs := by
  obtain ⟨p, live, rs, h1, _, h2⟩ := run_spec hM hE ops (inv_init M hM') h
  exact ⟨p, live, rs, h1, h2⟩

/-- C70: so, after every history, the live elements are distinct elements of the pool, ... -/
theorem ssalloc_live (M E : Nat) (live : List Nat) (ops : List Op) (live' : List Nat) (rs : List (Option Nat)) (h : Steps M E live ops live' rs)
    (hn : live.Nodup) (hl : ∀ i ∈ live, i < M) : live'.Nodup ∧ ∀ i ∈ live', i < M := by
  induction h with
  | nil => exact ⟨hn, hl⟩
  | cons hs _ ih =>
    cases hs with
    | alloc _ _ hi hni _ =>
      exact ih (List.nodup_cons.2 ⟨hni, hn⟩) (by
        intro x hx
        rcases List.mem_cons.1 hx with rfl | hx
        · exact hi
        · exact hl x hx)
    | full _ _ => exact ih hn hl
    | big _ => exact ih hn hl
    | free hi => exact ih (hn.erase _) (fun x hx => hl x (List.mem_of_mem_erase hx))
    | notLive _ => exact ih hn hl

/-- C70: ... and their memory does not overlap and is inside the pool. -/
theorem ssalloc_disjoint (M E i j : Nat) (hi : i < M) (hne : i ≠ j) : i * E + E ≤ M * E ∧ (i * E + E ≤ j * E ∨ j * E + E ≤ i * E) := by
  constructor
  · rw [← Nat.succ_mul]; exact Nat.mul_le_mul_right _ hi
  · rcases Nat.lt_or_gt_of_ne hne with h | h
    · left; rw [← Nat.succ_mul]; exact Nat.mul_le_mul_right _ h
    · right; rw [← Nat.succ_mul]; exact Nat.mul_le_mul_right _ h

example : ∃ p live rs, run 8 16 (ssa_init 8) [.alloc 16, .alloc 3, .free 0, .free 5, .free 999, .free 16, .alloc 17, .alloc 1] = .ok (p, rs) ∧
    rs = [some 0, some 16, none, none, none, none, none, some 0] ∧ Steps 8 16 [] [.alloc 16, .alloc 3, .free 0, .free 5, .free 999, .free 16, .alloc 17, .alloc 1] live rs := by
  obtain ⟨p, live, rs, h1, h2⟩ := ssalloc_history 8 16 (by decide) (by decide) (by decide) [.alloc 16, .alloc 3, .free 0, .free 5, .free 999, .free 16, .alloc 17, .alloc 1]
    (by simp [OpOk, FreeOk])
  refine ⟨p, live, rs, h1, ?_, h2⟩
  have e : run 8 16 (ssa_init 8) [.alloc 16, .alloc 3, .free 0, .free 5, .free 999, .free 16, .alloc 17, .alloc 1] =
    .ok (⟨[1], 1, 7⟩, [some 0, some 16, none, none, none, none, none, some 0]) := by decide
  rw [e] at h1
  injection h1 with h1
  injection h1 with _ h1
  exact h1.symm

/-- C70: the restriction on foreign pointers is needed: a pointer that is two or more whole elements before the pool is
    looked up outside the bit array. -/
theorem ssalloc_free_before (M E : Nat) (hE : 0 < E) (p : Pool) (k : Nat) :
    ssa_free M E p (-((k + 2 : Nat) : Int) * E) = .error .oobRead := by
  unfold ssa_free
  simp only
  rw [getidx_mul hE, if_neg (by omega)]
  unfold getIdx
  rw [if_pos (by omega)]
  rfl

/-- C71: an allocation fails exactly if it is larger than an element or no element can be handed out; the live elements
    are then unchanged. -/
theorem ssalloc_fails_iff (M E : Nat) (live live' : List Nat) (size : Nat) (r : Option Nat) (h : Step M E live (.alloc size) live' r) :
    (r = none ↔ size > E ∨ Full M live) ∧ (r = none → live' = live) := by
  cases h with
  | alloc h1 h2 _ _ _ => exact ⟨by simp [h2]; omega, by simp⟩
  | full h1 h2 => exact ⟨by simp [h2], fun _ => rfl⟩
  | big h1 => exact ⟨by simp [h1], fun _ => rfl⟩

/-- C71: if the number of elements is a multiple of 8, that means that every element is live. -/
theorem ssalloc_full_iff (M : Nat) (hM : 0 < M) (h8 : M % 8 = 0) (live : List Nat) : Full M live ↔ ∀ i, i < M → i ∈ live :=
  ⟨fun h i hi => h.2 i (by omega), fun h => ⟨h _ (by omega), fun i hi => h i (by omega)⟩⟩

/-- C71: otherwise (the number is even, but not a multiple of 8) there is a history after which an allocation fails although
    an element is free: allocate all, free the first one that is not searched. -/
theorem ssalloc_incomplete (M E : Nat) (hM : M < 2 ^ 64) (hE : 0 < E) (h2 : M % 2 = 0) (h8 : M % 8 ≠ 0) :
    ∃ ops p live rs, run M E (ssa_init M) ops = .ok (p, rs) ∧ Steps M E [] ops live rs ∧ live.length < M ∧
      ∃ size, size ≤ E ∧ ssa_alloc M E p size = .ok (p, none) := by
  have fill : ∀ k, k ≤ M → ∃ p rs, run M E (ssa_init M) (List.replicate k (.alloc 0)) = .ok (p, rs) ∧ Inv M p ((List.range k).reverse) ∧
      Steps M E [] (List.replicate k (.alloc 0)) ((List.range k).reverse) rs := by
    suffices H : ∀ k m p, m + k ≤ M → Inv M p ((List.range m).reverse) → ∃ p' rs, run M E p (List.replicate k (.alloc 0)) = .ok (p', rs) ∧
        Inv M p' ((List.range (m + k)).reverse) ∧ Steps M E ((List.range m).reverse) (List.replicate k (.alloc 0)) ((List.range (m + k)).reverse) rs by
      intro k hk
      have := H k 0 (ssa_init M) (by omega) (inv_init M hM)
      simpa using this
    intro k
    induction k with
    | zero => intro m p _ hi; exact ⟨p, [], rfl, hi, .nil⟩
    | succ k ih =>
      intro m p hm hi
      obtain ⟨p1, l1, r, e1, e2, e3⟩ := alloc_spec (E := E) (by omega) hi 0
      have hl1 : l1 = (List.range (m + 1)).reverse := by
        cases e3 with
        | alloc hs0 hnf hiM hni hnext =>
          rename_i i
          rw [List.range_succ, List.reverse_append]
          rcases hnext with ⟨_, a, b⟩ | ⟨a, _, _⟩
          · have him : i = m := by
              rcases Nat.lt_trichotomy i m with hlt | heq | hgt
              · exact absurd (by simpa using hlt) hni
              · exact heq
              · rcases b with b | b
                · omega
                · simp at b; omega
            subst him; rfl
          · simp at a; omega
        | full _ hf => have := hf.1; simp at this; omega
        | big h => omega
      subst hl1
      obtain ⟨p2, rs, f1, f2, f3⟩ := ih (m + 1) p1 (by omega) e2
      rw [show m + (k + 1) = m + 1 + k by omega]
      refine ⟨p2, r :: rs, ?_, f2, .cons e3 f3⟩
      rw [List.replicate_succ, run]
      simp only [step]
      rw [e1, ok_bind]
      simp only
      rw [f1]; rfl
  obtain ⟨p1, rs, e1, e2, e3⟩ := fill M (Nat.le_refl _)
  have hx : 8 * (M / 8) < M - 1 := by omega
  have hok : FreeOk E ((8 * (M / 8) * E : Nat) : Int) := Or.inl (Int.natCast_nonneg _)
  obtain ⟨p2, l2, f1, f2, f3⟩ := free_spec hE e2 hok
  have hin : 8 * (M / 8) ∈ (List.range M).reverse := by simp; omega
  have hl2 : l2 = ((List.range M).reverse).erase (8 * (M / 8)) := by
    generalize hd : ((8 * (M / 8) * E : Nat) : Int) = d at f3
    cases f3 with
    | free hi =>
      have := Int.ofNat_inj.1 hd
      rw [Nat.eq_of_mul_eq_mul_right hE this]
    | notLive h => exact absurd hd.symm (h _ hin)
  obtain ⟨p3, l3, r, g1, g2, g3⟩ := alloc_spec (E := E) (by omega) f2 0
  have hfull : Full M l2 := by
    rw [hl2]
    have hnd := e2.nodup
    refine ⟨hnd.mem_erase_iff.2 ⟨by omega, by simp; omega⟩, fun i hi => hnd.mem_erase_iff.2 ⟨by omega, by simp; omega⟩⟩
  refine ⟨List.replicate M (.alloc 0) ++ [.free ((8 * (M / 8) * E : Nat) : Int)], p2, l2, rs ++ [none], ?_, ?_, ?_, 0, by omega, ?_⟩
  · have app : ∀ (os os' : List Op) (p : Pool) (p' : Pool) rs p'' rs', run M E p os = .ok (p', rs) → run M E p' os' = .ok (p'', rs') →
        run M E p (os ++ os') = .ok (p'', rs ++ rs') := by
      intro os
      induction os with
      | nil =>
        intro os' p p' rs p'' rs' h h'
        injection h with h
        injection h with ha hb
        subst ha; subst hb
        exact h'
      | cons o os ih =>
        intro os' p p' rs p'' rs' h h'
        rw [run] at h
        rw [List.cons_append, run]
        cases hs : step M E p o with
        | error e => rw [hs] at h; simp at h
        | ok v =>
          obtain ⟨q, r⟩ := v
          rw [hs, ok_bind] at h
          rw [ok_bind]
          simp only at h ⊢
          cases hr : run M E q os with
          | error e => rw [hr] at h; simp at h
          | ok w =>
            obtain ⟨q', rr⟩ := w
            rw [hr, ok_bind] at h
            injection h with h
            injection h with ha hb
            subst ha; subst hb
            rw [ih os' q q' rr p'' rs' hr h', ok_bind]
            rfl
    refine app _ _ _ _ _ _ _ e1 ?_
    rw [run]
    simp only [step]
    rw [f1]; rfl
  · have app : ∀ (a b c : List Nat) (os os' : List Op) rs rs', Steps M E a os b rs → Steps M E b os' c rs' → Steps M E a (os ++ os') c (rs ++ rs') := by
      intro a b c os os' rs rs' h h'
      induction h with
      | nil => exact h'
      | cons hs _ ih => exact .cons hs (ih h')
    exact app _ _ _ _ _ _ _ e3 (.cons f3 .nil)
  · rw [hl2, List.length_erase_of_mem hin]
    simp
    omega
  · cases g3 with
    | alloc _ hnf _ _ _ => exact absurd hfull hnf
    | big h => omega
    | full _ _ =>
      have hp : p3 = p2 := by
        unfold ssa_alloc at g1
        rw [if_neg (by omega)] at g1
        split at g1
        · unfold ssa_set at g1
          obtain ⟨u, h1, _, _⟩ := set_true_spec (u := p2.used) (y := p2.top) (size_ok f2.len (by assumption))
          simp only at g1
          rw [h1, ok_bind] at g1
          simp at g1
        · split at g1
          · cases hb : findByte M p2 (M / 8 + 1) 0 with
            | error e => rw [hb] at g1; simp at g1
            | ok v =>
              rw [hb, ok_bind] at g1
              cases v with
              | none => simp at g1; exact g1.symm
              | some i =>
                simp only at g1
                unfold ssa_set at g1
                cases ht : Bitarray.BA_SET_TRUE p2.used i with
                | error e => rw [ht] at g1; simp at g1
                | ok u => rw [ht, ok_bind] at g1; simp at g1
          · simp at g1; exact g1.symm
      rw [hp] at g1
      exact g1

end Ulz.Props

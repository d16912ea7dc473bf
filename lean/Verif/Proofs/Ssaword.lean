import Verif.Spec.Ssaword
import Verif.Proofs.Ssalloc
/-! Lemmas about the single size allocator that searches words. -/
namespace Ulz.Ssaword
open Ulz.Bitarray Ulz.Ssalloc
open Ulz.Ssalloc.Spec (FreeOk OpOk Next)
open Ulz.Ssaword.Spec (Step Steps)

theorem findWord_spec {k M : Nat} {p : Pool} (hM : 8 * k * (M / (8 * k)) ≤ 8 * p.used.length) : ∀ fuel b, M / (8 * k) < fuel + b → 0 < fuel →
    b ≤ M / (8 * k) → (∀ j, j < 8 * (k * b) → bit p.used j = true) →
    (∃ i, findWord k M p fuel b = .ok (some i) ∧ i < 8 * k * (M / (8 * k)) ∧ bit p.used i = false ∧ ∀ j, j < i → bit p.used j = true) ∨
    (findWord k M p fuel b = .ok none ∧ ∀ j, j < 8 * k * (M / (8 * k)) → bit p.used j = true) := by
  intro fuel
  induction fuel with
  | zero => intro i _ h; omega
  | succ fuel ih =>
    intro b h1 _ h2 hbelow
    rw [findWord]
    by_cases hb : b < M / (8 * k)
    · have hw : k * b + k ≤ k * (M / (8 * k)) := by rw [← Nat.mul_succ]; exact Nat.mul_le_mul_left _ hb
      rw [Nat.mul_assoc] at hM
      have hrd : rdN p.used (k * b) k = .ok ((p.used.drop (k * b)).take k) := by
        unfold rdN; rw [if_pos (by omega)]
      rw [if_pos hb, hrd, ok_bind, Nat.mul_assoc 8 k b, Nat.mul_assoc 8 k (b + 1), Nat.mul_succ]
      by_cases hff : (p.used.drop (k * b)).take k ≠ List.replicate k 255
      · rw [if_pos hff]
        rcases findBit_spec (p := p) (n := 8 * (k * b + k)) (by omega) (8 * k + 1) (8 * (k * b)) (by omega) (by omega) (by omega) with
          ⟨i, a, x, y, z, w⟩ | ⟨a, x⟩
        · rw [a, ok_bind]
          refine Or.inl ⟨i, rfl, by rw [Nat.mul_assoc]; omega, z, ?_⟩
          intro j hj
          by_cases hjb : j < 8 * (k * b)
          · exact hbelow j hjb
          · exact w j (by omega) hj
        · rw [a, ok_bind]
          refine ih (b + 1) (by omega) (by omega) (by omega) ?_
          intro j hj
          rw [Nat.mul_succ] at hj
          by_cases hjb : j < 8 * (k * b)
          · exact hbelow j hjb
          · exact x j (by omega) hj
      · rw [if_neg hff]
        refine ih (b + 1) (by omega) (by omega) (by omega) ?_
        intro j hj
        rw [Nat.mul_succ] at hj
        by_cases hjb : j < 8 * (k * b)
        · exact hbelow j hjb
        · have hjl : j / 8 < p.used.length := by omega
          have e := congrArg (fun l => l[j / 8 - k * b]?) (Decidable.not_not.1 hff)
          simp only [List.getElem?_take, List.getElem?_drop, List.getElem?_replicate] at e
          rw [if_pos (by omega), if_pos (by omega), show k * b + (j / 8 - k * b) = j / 8 by omega] at e
          unfold bit
          rw [e]
          exact all_ones rfl _ (Nat.mod_lt _ (by omega))
    · rw [if_neg hb]
      have : b = M / (8 * k) := by omega
      subst this
      exact Or.inr ⟨rfl, fun j hj => hbelow j (by rw [Nat.mul_assoc] at hj; exact hj)⟩

theorem words_le (k M : Nat) : 8 * k * (M / (8 * k)) ≤ M := Nat.mul_div_le M (8 * k)

theorem alloc_spec {k M E : Nat} {p : Pool} {live : List Nat} (hM : 0 < M) (h : Inv M p live) (size : Nat) :
    ∃ p' live' r, ssa_alloc k M E p size = .ok (p', r) ∧ Inv M p' live' ∧ Step k M E live (.alloc size) live' r := by
  have hle := words_le k M
  unfold ssa_alloc
  by_cases hs : size > E
  · rw [if_pos hs]
    exact ⟨p, live, none, rfl, h, .big hs⟩
  · rw [if_neg hs]
    have hmem : M - 1 ∈ live ↔ p.top = M := by
      constructor
      · intro hm
        have := h.lt _ hm; have := h.top; omega
      · intro ht
        rcases h.last with h0 | h0
        · omega
        · rwa [ht] at h0
    by_cases ht : p.top < M
    · rw [if_pos ht]
      have hn : p.top ∉ live := fun hh => absurd (h.lt _ hh) (by omega)
      obtain ⟨p', e1, e2⟩ := ssa_set_spec (E := E) h ht hn (top := p.top + 1) (by omega) (by omega) (by omega) (by simp)
      have hm1 : M - 1 ∉ live := fun hh => by have := hmem.1 hh; omega
      exact ⟨p', _, _, e1, e2, .alloc (by omega) (fun hf => hm1 hf.1) ht hn (Or.inl ⟨hm1, h.lt, h.last⟩)⟩
    · rw [if_neg ht]
      have htM : p.top = M := by have := h.top; omega
      have hm1 := hmem.2 htM
      have hltM : ∀ i ∈ live, i < M := fun i hi => htM ▸ h.lt i hi
      by_cases hav : p.avail ≠ 0
      · rw [if_pos hav]
        have h8 : 8 * k * (M / (8 * k)) ≤ 8 * p.used.length := by
          rw [h.len]
          have : M ≤ 8 * BA_SIZE_REQUIRED M := by unfold BA_SIZE_REQUIRED; split <;> omega
          omega
        rcases findWord_spec h8 (M / (8 * k) + 1) 0 (Nat.lt_succ_self _) (Nat.succ_pos _) (Nat.zero_le _) (by intro j hj; omega) with ⟨i, a, b, c, d⟩ | ⟨a, b⟩
        · rw [a, ok_bind]
          have hk : i ∉ live := fun hh => by rw [(h.bits i).2 hh] at c; exact absurd c (by simp)
          obtain ⟨p', e1, e2⟩ := ssa_set_spec (E := E) h (show i < M by omega) hk (top := p.top) (by omega) (by omega) (by omega)
            (List.mem_cons_of_mem _ (htM ▸ hm1))
          exact ⟨p', _, _, e1, e2, .alloc (by omega) (fun hf => hk (hf.2 i b)) (by omega) hk
            (Or.inr ⟨hm1, hk, fun j hj => (h.bits j).1 (d j hj)⟩)⟩
        · rw [a, ok_bind]
          exact ⟨p, live, none, rfl, h, .full (by omega) ⟨hm1, fun i hi => (h.bits i).1 (b i hi)⟩⟩
      · rw [if_neg hav]
        have hall := pigeon h.nodup hltM (by have := h.avail; omega)
        exact ⟨p, live, none, rfl, h, .full (by omega) ⟨hm1, fun i hi => hall i (by omega)⟩⟩

theorem step_spec {k M E : Nat} (hM : 0 < M) (hE : 0 < E) {p : Pool} {live : List Nat} (h : Inv M p live) {o : Op} (ho : OpOk E o) :
    ∃ p' live' r, step k M E p o = .ok (p', r) ∧ Inv M p' live' ∧ Step k M E live o live' r := by
  cases o with
  | alloc size => exact alloc_spec hM h size
  | free d =>
    obtain ⟨p', live', e1, e2, e3⟩ := free_spec hE h ho
    refine ⟨p', live', none, by unfold step; simp only; rw [e1]; rfl, e2, ?_⟩
    cases e3 with
    | free hi => exact .free hi
    | notLive hi => exact .notLive hi

theorem run_spec {k M E : Nat} (hM : 0 < M) (hE : 0 < E) : ∀ (os : List Op) {p : Pool} {live : List Nat}, Inv M p live →
    (∀ o ∈ os, OpOk E o) → ∃ p' live' rs, run k M E p os = .ok (p', rs) ∧ Inv M p' live' ∧ Steps k M E live os live' rs := by
  intro os
  induction os with
  | nil => intro p live h _; exact ⟨p, live, [], rfl, h, .nil⟩
  | cons o os ih =>
    intro p live h ho
    obtain ⟨p1, l1, r, e1, e2, e3⟩ := step_spec hM hE h (ho o (by simp))
    obtain ⟨p2, l2, rs, f1, f2, f3⟩ := ih e2 (fun x hx => ho x (by simp [hx]))
    exact ⟨p2, l2, r :: rs, by rw [run, e1, ok_bind]; simp only; rw [f1]; rfl, f2, .cons e3 f3⟩

/-- With words of one byte it is the default. -/
theorem findWord_one (M : Nat) (p : Pool) : ∀ fuel b, findWord 1 M p fuel b = findByte M p fuel b
  | 0, _ => rfl
  | fuel + 1, b => by
    rw [findWord, findByte]
    simp only [Nat.mul_one, Nat.one_mul, findWord_one M p fuel (b + 1)]
    have key : ∀ (c : C (Option Nat)) (d : C (Option Nat)), (do if (← rdN p.used b 1) ≠ List.replicate 1 255 then c else d) =
        (do if (← rd p.used b) ≠ 255 then c else d) := by
      intro c d
      unfold rdN rd
      by_cases h : b < p.used.length
      · rw [if_pos (by omega), List.getElem?_eq_getElem h]
        simp only [ok_bind]
        have : (p.used.drop b).take 1 = [p.used[b]] := by
          rw [List.drop_eq_getElem_cons h]
          rfl
        rw [this]
        simp [List.replicate]
      · rw [if_neg (by omega), List.getElem?_eq_none (by omega)]
        rfl
    rw [key]
    rfl

theorem run_one (M E : Nat) : ∀ (os : List Op) (p : Pool), run 1 M E p os = Ssalloc.run M E p os
  | [], _ => rfl
  | o :: os, p => by
    have hs : step 1 M E p o = Ssalloc.step M E p o := by
      cases o with
      | alloc size =>
        simp only [step, Ssalloc.step, ssa_alloc, Ssalloc.ssa_alloc, findWord_one, Nat.mul_one]
        rfl
      | free d => rfl
    rw [run, Ssalloc.run, hs]
    simp only [run_one M E os]

/-- All elements are handed out in order. -/
theorem fill {k M E : Nat} : ∀ n m p, m + n ≤ M → Inv M p ((List.range m).reverse) → ∃ p' rs, run k M E p (List.replicate n (.alloc 0)) = .ok (p', rs) ∧
    Inv M p' ((List.range (m + n)).reverse) ∧ Steps k M E ((List.range m).reverse) (List.replicate n (.alloc 0)) ((List.range (m + n)).reverse) rs := by
  intro n
  induction n with
  | zero => intro m p _ hi; exact ⟨p, [], rfl, hi, .nil⟩
  | succ n ih =>
    intro m p hm hi
    obtain ⟨p1, l1, r, e1, e2, e3⟩ := alloc_spec (k := k) (E := E) (by omega) hi 0
    have hl1 : l1 = (List.range (m + 1)).reverse := by
      cases e3 with
      | alloc hs0 hnf hiM hni hnext =>
        rename_i i
        rw [List.range_succ, List.reverse_append]
        rcases hnext with ⟨_, a, b⟩ | ⟨a, _, _⟩
        · have him : i = m := by
            rcases Nat.lt_trichotomy i m with hlt | heq | hgt
            · exact absurd (by simpa using hlt) hni
            · exact heq
            · rcases b with b | b
              · omega
              · simp at b; omega
          subst him; rfl
        · simp at a; omega
      | full _ hf => have := hf.1; simp at this; omega
      | big h => omega
    subst hl1
    obtain ⟨p2, rs, f1, f2, f3⟩ := ih (m + 1) p1 (by omega) e2
    rw [show m + (n + 1) = m + 1 + n by omega]
    refine ⟨p2, r :: rs, ?_, f2, .cons e3 f3⟩
    rw [List.replicate_succ, run]
    simp only [step]
    rw [e1, ok_bind]
    simp only
    rw [f1]; rfl

theorem run_append {k M E : Nat} : ∀ (os os' : List Op) (p p' : Pool) rs p'' rs', run k M E p os = .ok (p', rs) → run k M E p' os' = .ok (p'', rs') →
    run k M E p (os ++ os') = .ok (p'', rs ++ rs')
  | [], os', p, p', rs, p'', rs', h, h' => by cases h; exact h'
  | o :: os, os', p, p', rs, p'', rs', h, h' => by
    rw [run] at h
    rw [List.cons_append, run]
    cases hs : step k M E p o with
    | error e => rw [hs] at h; cases h
    | ok v =>
      obtain ⟨q, r⟩ := v
      rw [hs] at h
      simp only [ok_bind] at h ⊢
      cases hr : run k M E q os with
      | error e => rw [hr] at h; cases h
      | ok w =>
        obtain ⟨q', rr⟩ := w
        rw [hr] at h
        cases h
        rw [run_append os os' q _ rr p'' rs' hr h']
        rfl

theorem steps_append {k M E : Nat} {a b c : List Nat} {os os' : List Op} {rs rs'} (h : Steps k M E a os b rs) (h' : Steps k M E b os' c rs') :
    Steps k M E a (os ++ os') c (rs ++ rs') := by
  induction h with
  | nil => exact h'
  | cons hs _ ih => exact .cons hs (ih h')

theorem step_unique {k M E : Nat} (hE : 0 < E) {live l1 l2 : List Nat} {o : Op} {r : Option Nat} (h1 : Step k M E live o l1 r)
    (h2 : Step k M E live o l2 r) : l1 = l2 := by
  cases o with
  | alloc size =>
    generalize hr : r = r' at h1
    cases h1 with
    | alloc a1 a2 a3 a4 a5 =>
      rename_i i
      cases h2 with
      | alloc b1 b2 b3 b4 b5 => rw [Nat.eq_of_mul_eq_mul_right hE (Option.some.inj hr)]
      | full => cases hr
      | big => cases hr
    | full =>
      cases h2 with
      | alloc => cases hr
      | full => rfl
      | big => rfl
    | big =>
      cases h2 with
      | alloc => cases hr
      | full => rfl
      | big => rfl
  | free d =>
    generalize hd : d = d' at h1
    cases h1 with
    | free a1 =>
      cases h2 with
      | free b1 => rw [Nat.eq_of_mul_eq_mul_right hE (Int.ofNat_inj.1 hd)]
      | notLive b1 => exact absurd hd (b1 _ a1)
    | notLive a1 =>
      cases h2 with
      | free b1 => exact absurd hd.symm (a1 _ b1)
      | notLive b1 => rfl

theorem steps_unique {k M E : Nat} (hE : 0 < E) : ∀ {ops : List Op} {live l1 l2 : List Nat} {rs : List (Option Nat)}, Steps k M E live ops l1 rs →
    Steps k M E live ops l2 rs → l1 = l2
  | [], live, l1, l2, rs, h1, h2 => by cases h1; cases h2; rfl
  | o :: ops, live, l1, l2, rs, h1, h2 => by
    cases h1 with
    | cons a1 a2 =>
      cases h2 with
      | cons b1 b2 =>
        have := step_unique hE a1 b1
        subst this
        exact steps_unique hE a2 b2

end Ulz.Ssaword

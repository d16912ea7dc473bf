import Verif.Proofs.Ssaword
/-! Property C217: the single size allocator with other settings of its macros. `k` is the size of the words in which the bits of the used
elements are searched. -/
namespace Ulz.Props
open Ulz.Ssaword
open Ulz.Ssalloc (Pool ssa_init Op Inv)
open Ulz.Ssalloc.Spec (OpOk FreeOk)

/-- C217. The check of SSA_MAXELEM stops the compiler exactly for odd numbers, not for those that are no power of two. -/
theorem ssalloc_check (M : Nat) (hM : 0 < M) : rejected M = true ↔ M % 2 = 1 := by
  unfold rejected
  rw [if_pos (by omega), decide_eq_true_iff, Nat.and_one_is_mod]
  omega

/-- C217. So of the powers of two it rejects just 1, and it accepts numbers that are none. -/
theorem ssalloc_check_powers : (∀ e, rejected (2 ^ e) = true ↔ e = 0) ∧ ∀ e, rejected (2 ^ (e + 1) * 3) = false := by
  constructor
  · intro e
    rw [ssalloc_check _ (Nat.two_pow_pos e)]
    cases e with
    | zero => simp
    | succ e => rw [Nat.pow_succ]; omega
  · intro e
    have h := ssalloc_check (2 ^ (e + 1) * 3) (by have := Nat.two_pow_pos (e + 1); omega)
    rw [Nat.pow_succ] at h ⊢
    cases hr : rejected (2 ^ e * 2 * 3) with
    | false => rfl
    | true => have := h.1 hr; omega

/-- C217. The word size depends on SSA_MAXLEN alone, which nothing defines; it is 1, 2, 4 or 8. -/
theorem ssalloc_word_bytes (maxlen : Option Nat) :
    wordBytes none = 1 ∧ (wordBytes maxlen = 1 ∨ wordBytes maxlen = 2 ∨ wordBytes maxlen = 4 ∨ wordBytes maxlen = 8) ∧
      (wordBytes maxlen = 8 ↔ ∃ n, maxlen = some n ∧ n > 1024) := by
  refine ⟨rfl, ?_, ?_⟩
  · unfold wordBytes
    dsimp only
    split
    · simp
    · split
      · simp
      · split <;> simp
  · unfold wordBytes
    cases maxlen with
    | none => simp
    | some n =>
      simp only [Option.getD_some, Option.some.injEq, exists_eq_left']
      by_cases h : n > 1024
      · simp [h]
      · rw [if_neg h]
        constructor
        · intro h'
          split at h'
          · omega
          · split at h' <;> omega
        · intro h'; omega

/-- C217. With words of one byte it is the allocator of C70, C71. -/
theorem ssalloc_word_one (M E : Nat) (ops : List Op) : run 1 M E (ssa_init M) ops = Ssalloc.run M E (ssa_init M) ops :=
  run_one M E ops _

/-- C217. For every word size, pool and history of calls there is no undefined behaviour, and the calls do what the specification says. -/
theorem ssalloc_word_history (k M E : Nat) (hM : 0 < M) (hM' : M < 2 ^ 64) (hE : 0 < E) (ops : List Op) (h : ∀ o ∈ ops, OpOk E o) :
    ∃ p live rs, run k M E (ssa_init M) ops = .ok (p, rs) ∧ Spec.Steps k M E [] ops live rs := by
  obtain ⟨p, live, rs, h1, _, h2⟩ := run_spec hM hE ops (Ssalloc.inv_init M hM') h
  exact ⟨p, live, rs, h1, h2⟩

/-- C217. So the live elements are always distinct elements of the pool, whatever the word size. -/
theorem ssalloc_word_live (k M E : Nat) (live : List Nat) (ops : List Op) (live' : List Nat) (rs : List (Option Nat))
    (h : Spec.Steps k M E live ops live' rs) (hn : live.Nodup) (hl : ∀ i ∈ live, i < M) : live'.Nodup ∧ ∀ i ∈ live', i < M := by
  induction h with
  | nil => exact ⟨hn, hl⟩
  | cons hs _ ih =>
    cases hs with
    | alloc _ _ hi hni _ =>
      exact ih (List.nodup_cons.2 ⟨hni, hn⟩) (by
        intro x hx
        rcases List.mem_cons.1 hx with rfl | hx
        · exact hi
        · exact hl x hx)
    | full _ _ => exact ih hn hl
    | big _ => exact ih hn hl
    | free hi => exact ih (hn.erase _) (fun x hx => hl x (List.mem_of_mem_erase hx))
    | notLive _ => exact ih hn hl

/-- C217. An allocation that is not too large fails although some element is free after some history, exactly if the number of elements
    is neither a multiple of the number of bits of a word nor one more. -/
theorem ssalloc_word_incomplete (k M E : Nat) (hk : 0 < k) (hM : 0 < M) (hM' : M < 2 ^ 64) (hE : 0 < E) :
    (∃ ops p live rs, (∀ o ∈ ops, OpOk E o) ∧ run k M E (ssa_init M) ops = .ok (p, rs) ∧ Spec.Steps k M E [] ops live rs ∧
      (∃ i, i < M ∧ i ∉ live) ∧ ∃ p', ssa_alloc k M E p E = .ok (p', none)) ↔ 1 < M % (8 * k) := by
  have hdiv := Nat.div_add_mod M (8 * k)
  have hmod := Nat.mod_lt M (show 0 < 8 * k by omega)
  constructor
  · rintro ⟨ops, p, live, rs, ho, e, hs, ⟨i, hi, hni⟩, p', e'⟩
    apply Classical.byContradiction
    intro hlt
    obtain ⟨p1, l1, r1, e1, v1, s1⟩ := run_spec (k := k) hM hE ops (Ssalloc.inv_init M hM') ho
    rw [e] at e1
    cases e1
    obtain ⟨p2, l2, r2, e2, v2, s2⟩ := alloc_spec (k := k) (E := E) hM v1 E
    rw [e'] at e2
    cases e2
    cases s2 with
    | big h => omega
    | full _ hf =>
      have hlive := steps_unique hE s1 hs
      subst hlive
      apply hni
      by_cases hlast : i = M - 1
      · rw [hlast]; exact hf.1
      · exact hf.2 i (by omega)
  · intro h1
    obtain ⟨p1, rs, e1, e2, e3⟩ := fill (k := k) (E := E) M 0 (ssa_init M) (by omega) (Ssalloc.inv_init M hM')
    rw [Nat.zero_add] at e2 e3
    have hok : FreeOk E ((8 * k * (M / (8 * k)) * E : Nat) : Int) := Or.inl (Int.natCast_nonneg _)
    generalize hq : 8 * k * (M / (8 * k)) = q at *
    obtain ⟨p2, l2, f1, f2, f3⟩ := Ssalloc.free_spec hE e2 hok
    have hin : q ∈ (List.range M).reverse := by simp; omega
    have hl2 : l2 = ((List.range M).reverse).erase q := by
      generalize hd : ((q * E : Nat) : Int) = d at f3
      cases f3 with
      | free hi =>
        have := Int.ofNat_inj.1 hd
        rw [Nat.eq_of_mul_eq_mul_right hE this]
      | notLive h => exact absurd hd.symm (h _ hin)
    obtain ⟨p3, l3, r, g1, g2, g3⟩ := alloc_spec (k := k) (E := E) hM f2 E
    have hfull : Spec.Full k M l2 := by
      rw [hl2]
      have hnd := e2.nodup
      refine ⟨hnd.mem_erase_iff.2 ⟨by omega, by simp; omega⟩, fun i hi => hnd.mem_erase_iff.2 ?_⟩
      rw [hq] at hi
      exact ⟨by omega, by simp; omega⟩
    refine ⟨List.replicate M (.alloc 0) ++ [.free ((q * E : Nat) : Int)], p2, l2, rs ++ [none], ?_, ?_, ?_, ⟨q, by omega, ?_⟩, ?_⟩
    · intro o ho
      rcases List.mem_append.1 ho with ho | ho
      · rw [List.eq_of_mem_replicate ho]; trivial
      · rw [List.mem_singleton.1 ho]; exact hok
    · refine run_append _ _ _ _ _ _ _ e1 ?_
      rw [run]
      simp only [step]
      rw [f1]; rfl
    · refine steps_append e3 (.cons ?_ .nil)
      rw [hl2]
      exact .free hin
    · rw [hl2]
      exact fun h => (e2.nodup.mem_erase_iff.1 h).1 rfl
    · cases g3 with
      | alloc _ hnf _ _ _ => exact absurd hfull hnf
      | big h => omega
      | full _ _ => exact ⟨p3, g1⟩

/-- C217. If there are fewer elements than bits in a word then, while the last element is live, no element is ever handed out. -/
theorem ssalloc_word_small (k M E : Nat) (hM : M < 8 * k) (live live' : List Nat) (size : Nat) (r : Option Nat)
    (h : Spec.Step k M E live (.alloc size) live' r) (hl : M - 1 ∈ live) : r = none := by
  cases h with
  | alloc _ hnf _ _ _ => exact absurd ⟨hl, fun i hi => by rw [Nat.div_eq_of_lt hM] at hi; omega⟩ hnf
  | full _ _ => rfl
  | big _ => rfl

/-- C217. In a pool at a multiple of 8 all words the search may read are aligned exactly if there are none or the size of the memory is a
    multiple of the word size; that is so whenever the number of elements is a power of two. -/
theorem ssalloc_word_aligned (k M E A : Nat) (hk : k = 1 ∨ k = 2 ∨ k = 4 ∨ k = 8) (hA : 8 ∣ A) :
    ((∀ b, b < M / (8 * k) → k ∣ wordAddr k M E A b) ↔ M < 8 * k ∨ k ∣ M * E) ∧
      (∀ e, M = 2 ^ e → ∀ b, b < M / (8 * k) → k ∣ wordAddr k M E A b) := by
  have hkA : k ∣ A := Nat.dvd_trans (by rcases hk with rfl | rfl | rfl | rfl <;> decide) hA
  have main : (∀ b, b < M / (8 * k) → k ∣ wordAddr k M E A b) ↔ M < 8 * k ∨ k ∣ M * E := by
    constructor
    · intro h
      by_cases hlt : M < 8 * k
      · exact Or.inl hlt
      · right
        have h0 := h 0 (Nat.div_pos (by omega) (by omega))
        unfold wordAddr at h0
        rw [Nat.mul_zero, Nat.add_zero] at h0
        exact (Nat.dvd_add_right hkA).1 h0
    · rintro (h | h) b hb
      · rw [Nat.div_eq_of_lt h] at hb; omega
      · exact Nat.dvd_add (Nat.dvd_add hkA h) (Nat.dvd_mul_right _ _)
  refine ⟨main, ?_⟩
  rintro e rfl
  apply main.2
  by_cases hlt : 2 ^ e < 8 * k
  · exact Or.inl hlt
  · right
    apply Nat.dvd_mul_right_of_dvd
    obtain ⟨c, rfl⟩ : ∃ c, k = 2 ^ c := by
      rcases hk with rfl | rfl | rfl | rfl
      · exact ⟨0, rfl⟩
      · exact ⟨1, rfl⟩
      · exact ⟨2, rfl⟩
      · exact ⟨3, rfl⟩
    apply Nat.pow_dvd_pow
    apply Classical.byContradiction
    intro hc
    have := Nat.pow_lt_pow_right (a := 2) (by omega) (show e < c by omega)
    omega

/-- C217. SSA_ELEMSIZE must not be a sum without parentheses: with `a + b` neighbouring elements overlap, the last one ends behind the
    memory, and no element is ever given back. -/
theorem ssalloc_sum (k M a b : Nat) (ha : 0 < a) (hb : 0 < b) (hM : 0 < M) :
    (∀ i, sumAddr a b i < sumAddr a b (i + 1) ∧ sumAddr a b (i + 1) < sumAddr a b i + (a + b)) ∧
      sumMem M a b < sumAddr a b (M - 1) + (a + b) ∧
      (∀ p d, 0 ≤ d → sumFree M a b p d = .ok p) ∧
      (∀ p, p.top < M → p.used.length = Bitarray.BA_SIZE_REQUIRED M → ∃ p', sumAlloc k M a b p (a + b) = .ok (p', some (sumAddr a b p.top)) ∧ p'.top = p.top + 1) := by
  refine ⟨fun i => ?_, ?_, fun p d hd => ?_, fun p hp hl => ?_⟩
  · unfold sumAddr
    rw [Nat.succ_mul]
    omega
  · unfold sumMem sumAddr
    have : M * a = (M - 1) * a + a := by
      rw [← Nat.succ_mul]
      congr 1
      omega
    omega
  · unfold sumFree sumIdx
    have : 0 ≤ d.tmod a := Int.tmod_nonneg _ hd
    simp only
    rw [if_pos (by omega)]
    rfl
  · unfold sumAlloc
    simp only
    rw [if_neg (by omega), if_pos hp]
    obtain ⟨u, e, -, -⟩ := Ssalloc.set_true_spec (u := p.used) (y := p.top) (Ssalloc.size_ok hl hp)
    rw [e]
    exact ⟨_, rfl, rfl⟩

/-- A pool of 16 elements searched in words of 8 bytes: all handed out, the first freed, and it is not found again; with words of
    2 bytes it is. -/
example : (run 8 16 4 (ssa_init 16) (List.replicate 16 (.alloc 4) ++ [.free 0, .alloc 4])).map (fun r => r.2.drop 15) =
    .ok [some 60, none, none] := by decide +kernel
example : (run 2 16 4 (ssa_init 16) (List.replicate 16 (.alloc 4) ++ [.free 0, .alloc 4])).map (fun r => r.2.drop 15) =
    .ok [some 60, none, some 0] := by decide +kernel

/-- The hypotheses of the theorems hold for it. -/
example : 1 < 16 % (8 * 8) ∧ ¬ 1 < 16 % (8 * 2) ∧ (∀ o ∈ List.replicate 16 (Op.alloc 4) ++ [.free 0, .alloc 4], OpOk 4 o) := by
  refine ⟨by decide, by decide, ?_⟩
  intro o ho
  rcases List.mem_append.1 ho with ho | ho
  · rw [List.eq_of_mem_replicate ho]; trivial
  · simp only [List.mem_cons, List.not_mem_nil, or_false] at ho
    rcases ho with rfl | rfl
    · exact Or.inl (Int.le_refl _)
    · trivial

/-- 66 elements of one byte, accepted by the check: words of 8 bytes are misaligned. -/
example : rejected 66 = false ∧ ¬ 8 ∣ wordAddr 8 66 1 0 0 ∧ 0 < 66 / (8 * 8) := by decide

end Ulz.Props

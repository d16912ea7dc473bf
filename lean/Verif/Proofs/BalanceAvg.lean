import Verif.Proofs.BalanceOps
import Verif.Proofs.Generator
import Mathlib.NumberTheory.Harmonic.Defs
import Mathlib.Data.List.Permutation
import Mathlib.Logic.Equiv.Fin.Basic
import Mathlib.Data.Fintype.Perm
import Mathlib.Data.List.OfFn
import Mathlib.Data.List.FinRange
import Mathlib.Algebra.BigOperators.Fin
import Mathlib.Algebra.BigOperators.Intervals
import Mathlib.Algebra.Order.Field.Rat
import Mathlib.Algebra.Order.BigOperators.Group.Finset
import Mathlib.Tactic.Ring
import Mathlib.Tactic.FieldSimp
import Mathlib.Tactic.Linarith
set_option linter.unusedVariables false
set_option linter.unusedSimpArgs false
namespace Ulz.Tlist
open Spec
open scoped Nat

/-- The arrangements in which the position `j` of `S` has the highest value. -/
def top {n : Nat} (p : Fin n → Nat) (S : Finset (Fin n)) (j : Fin n) : Finset (Equiv.Perm (Fin n)) :=
  Finset.univ.filter fun σ => ∀ k ∈ S, p (σ k) ≤ p (σ j)

theorem top_card_eq {n : Nat} (p : Fin n → Nat) (S : Finset (Fin n)) {j k : Fin n} (hj : j ∈ S) (hk : k ∈ S) :
    (top p S j).card = (top p S k).card := by
  apply Finset.card_bij (fun σ _ => σ * Equiv.swap j k)
  · intro σ hσ
    simp only [top, Finset.mem_filter, Finset.mem_univ, true_and] at hσ ⊢
    intro m hm
    simp only [Equiv.Perm.coe_mul, Function.comp, Equiv.swap_apply_right]
    apply hσ
    by_cases h1 : m = j
    · rw [h1, Equiv.swap_apply_left]; exact hk
    · by_cases h2 : m = k
      · rw [h2, Equiv.swap_apply_right]; exact hj
      · rw [Equiv.swap_apply_of_ne_of_ne h1 h2]; exact hm
  · intro a _ b _ h
    exact mul_right_cancel h
  · intro τ hτ
    refine ⟨τ * Equiv.swap j k, ?_, ?_⟩
    · simp only [top, Finset.mem_filter, Finset.mem_univ, true_and] at hτ ⊢
      intro m hm
      simp only [Equiv.Perm.coe_mul, Function.comp, Equiv.swap_apply_left]
      apply hτ
      by_cases h1 : m = j
      · rw [h1, Equiv.swap_apply_left]; exact hk
      · by_cases h2 : m = k
        · rw [h2, Equiv.swap_apply_right]; exact hj
        · rw [Equiv.swap_apply_of_ne_of_ne h1 h2]; exact hm
    · rw [mul_assoc, Equiv.swap_mul_self, mul_one]

theorem top_card {n : Nat} {p : Fin n → Nat} (hp : Function.Injective p) (S : Finset (Fin n)) {j : Fin n} (hj : j ∈ S) :
    S.card * (top p S j).card = n ! := by
  have h1 : ∑ k ∈ S, (top p S k).card = S.card * (top p S j).card := by
    rw [Finset.sum_congr rfl (fun k hk => top_card_eq p S hk hj), Finset.sum_const, smul_eq_mul]
  have h2 : (S.biUnion (top p S)).card = ∑ k ∈ S, (top p S k).card := by
    apply Finset.card_biUnion
    intro a ha b hb hab
    show Disjoint (top p S a) (top p S b)
    rw [Finset.disjoint_left]
    intro σ h1 h2
    simp only [top, Finset.mem_filter, Finset.mem_univ, true_and] at h1 h2
    have := Nat.le_antisymm (h1 b hb) (h2 a ha)
    exact hab (σ.injective (hp this)).symm
  have h3 : S.biUnion (top p S) = Finset.univ := by
    ext σ
    simp only [Finset.mem_biUnion, Finset.mem_univ, iff_true]
    obtain ⟨k, hk, hm⟩ := Finset.exists_max_image S (fun k => p (σ k)) ⟨j, hj⟩
    exact ⟨k, hk, by simpa [top] using hm⟩
  rw [← h1, ← h2, h3, Finset.card_univ, Fintype.card_perm, Fintype.card_fin]

/-- The priorities of an arrangement. -/
def lay {n : Nat} (p : Fin n → Nat) (σ : Equiv.Perm (Fin n)) : List Nat := List.ofFn fun k => p (σ k)

theorem lay_getD {n : Nat} (p : Fin n → Nat) (σ : Equiv.Perm (Fin n)) (k : Fin n) : (lay p σ).getD k 0 = p (σ k) := by
  simp [lay, List.getD_eq_getElem?_getD, List.getElem?_ofFn]

/-- The positions from `i` to `j`, in either direction. -/
def between {n : Nat} (i j : Fin n) : Finset (Fin n) := Finset.univ.filter fun k => (i ≤ k ∧ k ≤ j) ∨ (j ≤ k ∧ k ≤ i)

theorem onWay_top {n : Nat} {p : Fin n → Nat} (hp : Function.Injective p) (σ : Equiv.Perm (Fin n)) (i j : Fin n) :
    OnWay (lay p σ) i j ↔ σ ∈ top p (between i j) j := by
  simp only [top, between, Finset.mem_filter, Finset.mem_univ, true_and]
  unfold OnWay
  rw [lay_getD]
  constructor
  · rintro (⟨h1, h2⟩ | ⟨h1, h2⟩) k hk
    · by_cases e : k = j
      · rw [e]
      · have : (j : Nat) ≠ k := fun h => e (Fin.ext h.symm)
        have hk' : (j : Nat) ≤ k ∧ (k : Nat) ≤ i := by
          rcases hk with ⟨a, b⟩ | h
          · simp only [Fin.le_def] at a b; omega
          · simpa only [Fin.le_def] using h
        have := h2 k hk'.2 (by omega)
        rw [lay_getD] at this
        omega
    · by_cases e : k = j
      · rw [e]
      · have : (j : Nat) ≠ k := fun h => e (Fin.ext h.symm)
        have hk' : (i : Nat) ≤ k ∧ (k : Nat) ≤ j := by
          rcases hk with h | ⟨a, b⟩
          · simpa only [Fin.le_def] using h
          · simp only [Fin.le_def] at a b; omega
        have := h2 k (by omega) hk'.1
        rwa [lay_getD] at this
  · intro h
    by_cases hij : (j : Nat) < i
    · refine .inl ⟨hij, fun k hk hjk => ?_⟩
      have hkn : k < n := by omega
      have h1 := h ⟨k, hkn⟩ (.inr ⟨by simp only [Fin.le_def]; omega, by simp only [Fin.le_def]; omega⟩)
      have h2 : p (σ ⟨k, hkn⟩) ≠ p (σ j) := fun e => by
        have := σ.injective (hp e)
        rw [← this] at hjk; simp at hjk
      have := lay_getD p σ ⟨k, hkn⟩
      simp only at this
      rw [this]; omega
    · refine .inr ⟨by omega, fun k hk hjk => ?_⟩
      have hkn : k < n := by omega
      have h1 := h ⟨k, hkn⟩ (.inl ⟨by simp only [Fin.le_def]; omega, by simp only [Fin.le_def]; omega⟩)
      have := lay_getD p σ ⟨k, hkn⟩
      simp only at this
      rw [this]; exact h1

theorem between_self {n : Nat} (i j : Fin n) : j ∈ between i j := by
  simp only [between, Finset.mem_filter, Finset.mem_univ, true_and, le_refl, and_true, true_and]
  exact le_total _ _

theorem between_card {n : Nat} (i j : Fin n) : (between i j).card = (if (j : Nat) ≤ i then (i : Nat) - j else j - i) + 1 := by
  split
  · rename_i h
    have : between i j = Finset.Icc j i := by
      ext k; simp only [between, Finset.mem_filter, Finset.mem_univ, true_and, Finset.mem_Icc, Fin.le_def]
      constructor
      · rintro (⟨a, b⟩ | h')
        · omega
        · exact h'
      · intro h'; exact .inr h'
    rw [this, Fin.card_Icc]; omega
  · rename_i h
    have : between i j = Finset.Icc i j := by
      ext k; simp only [between, Finset.mem_filter, Finset.mem_univ, true_and, Finset.mem_Icc, Fin.le_def]
      constructor
      · rintro (h' | ⟨a, b⟩)
        · exact h'
        · omega
      · intro h'; exact .inl h'
    rw [this, Fin.card_Icc]; omega

theorem countP_range (P : Nat → Prop) [DecidablePred P] : ∀ n, (List.range n).countP (fun j => decide (P j)) = ∑ j ∈ Finset.range n, if P j then 1 else 0
  | 0 => rfl
  | n + 1 => by
    rw [List.range_succ, List.countP_append, countP_range P n, Finset.sum_range_succ, List.countP_singleton]
    simp

theorem wayLength_sum {n : Nat} (p : Fin n → Nat) (hp : Function.Injective p) (σ : Equiv.Perm (Fin n)) (i : Fin n) :
    wayLength (lay p σ) i = ∑ j : Fin n, if σ ∈ top p (between i j) j then 1 else 0 := by
  unfold wayLength
  rw [show (lay p σ).length = n by simp [lay], countP_range, Finset.sum_range]
  apply Finset.sum_congr rfl
  intro j _
  exact if_congr (onWay_top hp σ i j) rfl rfl

theorem dist_sum (n i : Nat) (hi : i < n) :
    ∑ j ∈ Finset.range n, (((if j ≤ i then i - j else j - i) + 1 : Nat) : ℚ)⁻¹ = harmonic (i + 1) + harmonic (n - i) - 1 := by
  obtain ⟨m, rfl⟩ : ∃ m, n = i + 1 + m := ⟨n - (i + 1), by omega⟩
  rw [Finset.sum_range_add, show i + 1 + m - i = m + 1 by omega]
  have h1 : ∑ j ∈ Finset.range (i + 1), (((if j ≤ i then i - j else j - i) + 1 : Nat) : ℚ)⁻¹ = harmonic (i + 1) := by
    rw [harmonic, ← Finset.sum_range_reflect]
    apply Finset.sum_congr rfl
    intro j hj
    have := Finset.mem_range.1 hj
    rw [if_pos (by omega)]
    congr 2
    omega
  have h2 : ∑ x ∈ Finset.range m, (((if i + 1 + x ≤ i then i - (i + 1 + x) else (i + 1 + x) - i) + 1 : Nat) : ℚ)⁻¹ = harmonic (m + 1) - 1 := by
    rw [harmonic, Finset.sum_range_succ']
    simp only [Nat.zero_add, Nat.cast_one, inv_one, add_sub_cancel_right]
    apply Finset.sum_congr rfl
    intro j hj
    rw [if_neg (by omega)]
    congr 2
    omega
  rw [h1, h2]
  ring

theorem total {n : Nat} {p : Fin n → Nat} (hp : Function.Injective p) (i : Fin n) :
    ∑ σ : Equiv.Perm (Fin n), (wayLength (lay p σ) i : ℚ) = n ! * (harmonic (i + 1) + harmonic (n - i) - 1) := by
  simp only [wayLength_sum p hp]
  push_cast
  rw [Finset.sum_comm]
  have h : ∀ j : Fin n, ∑ σ : Equiv.Perm (Fin n), (if σ ∈ top p (between i j) j then (1 : ℚ) else 0) =
      n ! * (((if (j : Nat) ≤ i then (i : Nat) - j else j - i) + 1 : Nat) : ℚ)⁻¹ := by
    intro j
    rw [Finset.sum_ite_mem, Finset.univ_inter, Finset.sum_const, nsmul_eq_mul, mul_one, ← between_card i j,
      ← top_card hp (between i j) (between_self i j)]
    have : ((between i j).card : ℚ) ≠ 0 := by rw [between_card]; positivity
    push_cast
    field_simp
  rw [Finset.sum_congr rfl (fun j _ => h j), ← Finset.mul_sum, ← dist_sum n i i.2, Finset.sum_range]

/-! ### Sequences of indices and arrangements -/

theorem insertions_eq (a : Nat) : ∀ l : List Nat, List.permutations'Aux a l = (List.range (l.length + 1)).map fun i => insertAt l i a
  | [] => rfl
  | b :: l => by
    rw [List.permutations'Aux, insertions_eq a l, List.length_cons, List.range_succ_eq_map (n := l.length + 1), List.map_cons, List.map_map,
      List.map_map]
    rfl

/-- The priorities drawn so far, the latest first. -/
def drawn : Nat → List Nat
  | 0 => []
  | n + 1 => draw n :: drawn n

theorem drawn_length : ∀ n, (drawn n).length = n
  | 0 => rfl
  | n + 1 => by simp [drawn, drawn_length n]

theorem mem_drawn {v : Nat} : ∀ {n}, v ∈ drawn n ↔ ∃ k < n, draw k = v
  | 0 => by simp [drawn]
  | n + 1 => by
    simp only [drawn, List.mem_cons, mem_drawn (n := n)]
    constructor
    · intro h
      rcases h with h | ⟨k, hk, e⟩
      · exact ⟨n, Nat.lt_succ_self n, h.symm⟩
      · exact ⟨k, Nat.lt_succ_of_lt hk, e⟩
    · intro h
      obtain ⟨k, hk, h⟩ := h
      by_cases e : k = n
      · left; rw [← h, e]
      · right; exact ⟨k, by omega, h⟩

theorem drawn_nodup : ∀ {n}, n ≤ 2^31 → (drawn n).Nodup
  | 0, _ => List.nodup_nil
  | n + 1, h => by
    refine List.nodup_cons.2 ⟨?_, drawn_nodup (by omega)⟩
    rw [mem_drawn]
    rintro ⟨k, hk, e⟩
    have h1 := (draw_eq k (n - k)).1 (by rw [show k + (n - k) = n by omega, e])
    have := Nat.le_of_dvd (by omega) h1
    omega

theorem arrange_snoc (s : List Nat) (i : Nat) : arrange (s ++ [i]) = ((arrange s).1 + 1, insertAt (arrange s).2 i (draw (arrange s).1)) := by
  simp [arrange, List.foldl_append]

theorem arrange_fst (s : List Nat) : (arrange s).1 = s.length := by
  induction s using List.reverseRecOn with
  | nil => rfl
  | append_singleton s i ih => rw [arrange_snoc]; simp [ih]

theorem orders_mem : ∀ {n : Nat} {s : List Nat}, s ∈ orders n ↔ s.length = n ∧ ∀ k < n, s.getD k 0 ≤ k
  | 0, s => by simp [orders]
  | n + 1, s => by
    simp only [orders, List.mem_flatMap, List.mem_map, List.mem_range]
    constructor
    · rintro ⟨s, hs, i, hi, rfl⟩
      obtain ⟨h1, h2⟩ := orders_mem.1 hs
      refine ⟨by simp [h1], fun k hk => ?_⟩
      by_cases e : k = n
      · subst e; rw [← h1]; simp [List.getD_eq_getElem?_getD]; omega
      · have := h2 k (by omega)
        rw [List.getD_eq_getElem?_getD, List.getElem?_append_left (by omega), ← List.getD_eq_getElem?_getD]; exact this
    · rintro ⟨h1, h2⟩
      have hne : s ≠ [] := by intro e; simp [e] at h1
      refine ⟨s.dropLast, orders_mem.2 ⟨by simp [h1], fun k hk => ?_⟩, s.getLast hne, ?_, List.dropLast_append_getLast hne⟩
      · have := h2 k (by omega)
        rw [List.getD_eq_getElem?_getD] at this ⊢
        rw [List.getElem?_dropLast, if_pos (by omega)]; exact this
      · have := h2 n (by omega)
        rw [List.getD_eq_getElem?_getD, List.getElem?_eq_getElem (by omega)] at this
        rw [List.getLast_eq_getElem]
        simp only [h1, Nat.add_sub_cancel]
        simp at this; omega

theorem orders_map : ∀ n, (orders n).map (fun s => (arrange s).2) = (drawn n).permutations'
  | 0 => rfl
  | n + 1 => by
    rw [drawn, List.permutations', ← orders_map n, orders, List.map_flatMap, List.flatMap_map]
    apply List.flatMap_congr
    intro s hs
    have h1 : (arrange s).2 ∈ (drawn n).permutations' := by rw [← orders_map n]; exact List.mem_map_of_mem hs
    have h2 : (arrange s).2.length = n := by rw [(List.mem_permutations'.1 h1).length_eq, drawn_length]
    rw [insertions_eq, h2, List.map_map]
    apply List.map_congr_left
    intro i _
    simp only [Function.comp]
    rw [arrange_snoc, arrange_fst, (orders_mem.1 hs).1]

theorem orders_length (n : Nat) : (orders n).length = n ! := by
  have := congrArg List.length (orders_map n)
  rw [List.length_map, ← (List.permutations_perm_permutations' _).length_eq, List.length_permutations, drawn_length] at this
  exact this

theorem orders_nodup {n : Nat} : (orders n).Nodup := by
  induction n with
  | zero => simp [orders]
  | succ n ih =>
    rw [orders, List.nodup_flatMap]
    refine ⟨fun s _ => ?_, ?_⟩
    · apply List.Nodup.map _ List.nodup_range
      intro a b h
      simpa using h
    · refine List.Pairwise.imp ?_ ih
      intro a b hab x h1 h2
      simp only [List.mem_map, List.mem_range] at h1 h2
      obtain ⟨i, _, rfl⟩ := h1
      obtain ⟨j, _, h⟩ := h2
      exact hab (List.append_inj_left' h rfl).symm

theorem sum_orders {n : Nat} (hn : n ≤ 2^31) (f : List Nat → ℚ) :
    ((orders n).map fun s => f (arrange s).2).sum = ∑ σ : Equiv.Perm (Fin n), f (lay (fun k : Fin n => (drawn n)[k]'(by rw [drawn_length]; exact k.2)) σ) := by
  have hnd := drawn_nodup hn
  have e0 : ((orders n).map fun s => f (arrange s).2) = ((drawn n).permutations').map f := by rw [← orders_map, List.map_map]; rfl
  have hnp : (drawn n).permutations'.Nodup := (List.permutations_perm_permutations' _).nodup_iff.1 (List.nodup_permutations _ hnd)
  rw [e0, ← List.sum_toFinset f hnp]
  set p : Fin n → Nat := fun k => (drawn n)[k]'(by rw [drawn_length]; exact k.2) with hp
  have hinj : Function.Injective p := by
    intro a b h
    exact Fin.ext ((List.Nodup.getElem_inj_iff hnd).1 h)
  have hof : List.ofFn p = drawn n := by
    apply List.ext_getElem
    · simp [drawn_length]
    · intro i h1 h2; simp [hp]
  have hlay : Function.Injective (lay p) := by
    intro a b h
    have := List.ofFn_injective h
    ext k
    have := congrFun this k
    exact congrArg Fin.val (hinj this)
  have him : Finset.univ.image (lay p) = (drawn n).permutations'.toFinset := by
    apply Finset.eq_of_subset_of_card_le
    · intro l hl
      obtain ⟨σ, _, rfl⟩ := Finset.mem_image.1 hl
      rw [List.mem_toFinset, List.mem_permutations', ← hof]
      exact Equiv.Perm.ofFn_comp_perm σ p
    · rw [Finset.card_image_of_injective _ hlay, Finset.card_univ, Fintype.card_perm, Fintype.card_fin]
      refine (List.toFinset_card_le _).trans ?_
      rw [← (List.permutations_perm_permutations' _).length_eq, List.length_permutations, drawn_length]
  rw [← him, Finset.sum_image (fun a _ b _ h => hlay h)]

theorem drawn_inj {n : Nat} (hn : n ≤ 2^31) : Function.Injective (fun k : Fin n => (drawn n)[k]'(by rw [drawn_length]; exact k.2)) := by
  intro a b h
  exact Fin.ext ((List.Nodup.getElem_inj_iff (drawn_nodup hn)).1 h)

theorem average {n : Nat} (hn : n ≤ 2^31) {i : Nat} (hi : i < n) :
    ((orders n).map fun s => (wayLength (arrange s).2 i : ℚ)).sum = n ! * (harmonic (i + 1) + harmonic (n - i) - 1) := by
  rw [sum_orders hn (fun ps => (wayLength ps i : ℚ))]
  exact total (drawn_inj hn) ⟨i, hi⟩

/-! ### The same for gaps -/

/-- The positions from the gap to `j`. -/
def gapset {n : Nat} (a b : Nat) (j : Fin n) : Finset (Fin n) :=
  Finset.univ.filter fun k => ((j : Nat) ≤ k ∧ (k : Nat) < a) ∨ (b ≤ (k : Nat) ∧ (k : Nat) ≤ j)

theorem gapset_self {n a b : Nat} {j : Fin n} (h : (j : Nat) < a ∨ b ≤ (j : Nat)) : j ∈ gapset a b j := by
  simp only [gapset, Finset.mem_filter, Finset.mem_univ, true_and]
  omega

theorem gapset_card {n a b : Nat} (hab : a ≤ b) (hb : b ≤ n) (j : Fin n) :
    (gapset a b j).card = if (j : Nat) < a then a - j else if b ≤ (j : Nat) then j + 1 - b else 0 := by
  split
  · rename_i h
    have : gapset a b j = Finset.Icc j (⟨a - 1, by omega⟩ : Fin n) := by
      ext k; simp only [gapset, Finset.mem_filter, Finset.mem_univ, true_and, Finset.mem_Icc, Fin.le_def]
      omega
    rw [this, Fin.card_Icc]
    simp only
    omega
  · split
    · rename_i h1 h2
      have : gapset a b j = Finset.Icc (⟨b, by omega⟩ : Fin n) j := by
        ext k; simp only [gapset, Finset.mem_filter, Finset.mem_univ, true_and, Finset.mem_Icc, Fin.le_def]
        omega
      rw [this, Fin.card_Icc]
    · rw [Finset.card_eq_zero, Finset.eq_empty_iff_forall_notMem]
      intro k
      simp only [gapset, Finset.mem_filter, Finset.mem_univ, true_and]
      omega

theorem sees_top {n a b : Nat} (hab : a ≤ b) (hb : b ≤ n) {p : Fin n → Nat} (hp : Function.Injective p) (σ : Equiv.Perm (Fin n)) (j : Fin n) :
    Sees (lay p σ) a b j ↔ ((j : Nat) < a ∨ b ≤ (j : Nat)) ∧ σ ∈ top p (gapset a b j) j := by
  simp only [top, gapset, Finset.mem_filter, Finset.mem_univ, true_and]
  unfold Sees
  rw [lay_getD]
  constructor
  · rintro (⟨h1, h2⟩ | ⟨h1, h2⟩)
    · refine ⟨.inl h1, fun k hk => ?_⟩
      by_cases e : k = j
      · rw [e]
      · have : (j : Nat) ≠ k := fun h => e (Fin.ext h.symm)
        have := h2 k (by omega) (by omega)
        rw [lay_getD] at this
        omega
    · refine ⟨.inr h1, fun k hk => ?_⟩
      by_cases e : k = j
      · rw [e]
      · have : (j : Nat) ≠ k := fun h => e (Fin.ext h.symm)
        have := h2 k (by omega) (by omega)
        rwa [lay_getD] at this
  · rintro ⟨hj, h⟩
    by_cases hij : (j : Nat) < a
    · refine .inl ⟨hij, fun k hk hjk => ?_⟩
      have hkn : k < n := by omega
      have h1 := h ⟨k, hkn⟩ (.inl ⟨by simp only; omega, by simp only; omega⟩)
      have h2 : p (σ ⟨k, hkn⟩) ≠ p (σ j) := fun e => by
        have := σ.injective (hp e)
        rw [← this] at hjk; simp at hjk
      have := lay_getD p σ ⟨k, hkn⟩
      simp only at this
      rw [this]; omega
    · refine .inr ⟨by omega, fun k hk hjk => ?_⟩
      have hkn : k < n := by omega
      have h1 := h ⟨k, hkn⟩ (.inr ⟨by simp only; omega, by simp only; omega⟩)
      have := lay_getD p σ ⟨k, hkn⟩
      simp only at this
      rw [this]; exact h1

theorem gap_sum (n a b : Nat) (hab : a ≤ b) (hb : b ≤ n) :
    ∑ j ∈ Finset.range n, ((if j < a then a - j else if b ≤ j then j + 1 - b else 0 : Nat) : ℚ)⁻¹ = harmonic a + harmonic (n - b) := by
  obtain ⟨m, rfl⟩ : ∃ m, n = b + m := ⟨n - b, by omega⟩
  obtain ⟨c, rfl⟩ : ∃ c, b = a + c := ⟨b - a, by omega⟩
  rw [Finset.sum_range_add, Finset.sum_range_add, show a + c + m - (a + c) = m by omega]
  have h1 : ∑ j ∈ Finset.range a, ((if j < a then a - j else if a + c ≤ j then j + 1 - (a + c) else 0 : Nat) : ℚ)⁻¹ = harmonic a := by
    rw [harmonic, ← Finset.sum_range_reflect]
    apply Finset.sum_congr rfl
    intro j hj
    have := Finset.mem_range.1 hj
    rw [if_pos (by omega)]
    congr 2
    omega
  have h2 : ∑ x ∈ Finset.range c, ((if a + x < a then a - (a + x) else if a + c ≤ a + x then a + x + 1 - (a + c) else 0 : Nat) : ℚ)⁻¹ = 0 := by
    apply Finset.sum_eq_zero
    intro j hj
    have := Finset.mem_range.1 hj
    rw [if_neg (by omega), if_neg (by omega)]
    simp
  have h3 : ∑ x ∈ Finset.range m, ((if a + c + x < a then a - (a + c + x) else if a + c ≤ a + c + x then a + c + x + 1 - (a + c) else 0 : Nat) : ℚ)⁻¹ = harmonic m := by
    rw [harmonic]
    apply Finset.sum_congr rfl
    intro j hj
    rw [if_neg (by omega), if_pos (by omega)]
    congr 2
    omega
  rw [h1, h2, h3]
  ring

theorem gap_total {n a b : Nat} (hab : a ≤ b) (hb : b ≤ n) {p : Fin n → Nat} (hp : Function.Injective p) :
    ∑ σ : Equiv.Perm (Fin n), (seen (lay p σ) a b : ℚ) = n ! * (harmonic a + harmonic (n - b)) := by
  have hs : ∀ σ : Equiv.Perm (Fin n), seen (lay p σ) a b =
      ∑ j : Fin n, if ((j : Nat) < a ∨ b ≤ (j : Nat)) ∧ σ ∈ top p (gapset a b j) j then 1 else 0 := by
    intro σ
    unfold seen
    rw [show (lay p σ).length = n by simp [lay], countP_range, Finset.sum_range]
    apply Finset.sum_congr rfl
    intro j _
    exact if_congr (sees_top hab hb hp σ j) rfl rfl
  simp only [hs]
  push_cast
  rw [Finset.sum_comm]
  have h : ∀ j : Fin n, ∑ σ : Equiv.Perm (Fin n), (if ((j : Nat) < a ∨ b ≤ (j : Nat)) ∧ σ ∈ top p (gapset a b j) j then (1 : ℚ) else 0) =
      n ! * ((if (j : Nat) < a then a - (j : Nat) else if b ≤ (j : Nat) then (j : Nat) + 1 - b else 0 : Nat) : ℚ)⁻¹ := by
    intro j
    by_cases hj : (j : Nat) < a ∨ b ≤ (j : Nat)
    · simp only [hj, true_and]
      rw [Finset.sum_ite_mem, Finset.univ_inter, Finset.sum_const, nsmul_eq_mul, mul_one, ← gapset_card hab hb j,
        ← top_card hp (gapset a b j) (gapset_self hj)]
      have : ((gapset a b j).card : ℚ) ≠ 0 := by
        have := Finset.card_pos.2 ⟨j, gapset_self hj⟩
        positivity
      push_cast
      field_simp
    · simp only [hj, false_and, if_false]
      rw [if_neg (by omega), if_neg (by omega)]
      simp
  rw [Finset.sum_congr rfl (fun j _ => h j), ← Finset.mul_sum, ← gap_sum n a b hab hb, Finset.sum_range]

theorem average_seen {n : Nat} (hn : n ≤ 2^31) {a b : Nat} (hab : a ≤ b) (hb : b ≤ n) :
    ((orders n).map fun s => (seen (arrange s).2 a b : ℚ)).sum = n ! * (harmonic a + harmonic (n - b)) := by
  rw [sum_orders hn (fun ps => (seen ps a b : ℚ))]
  exact gap_total hab hb (drawn_inj hn)

/-! ### How big these averages are -/

theorem harmonic_double (n : Nat) : harmonic (2 * n + 1) ≤ harmonic n + 1 := by
  rw [show 2 * n + 1 = n + (n + 1) by omega, harmonic, Finset.sum_range_add, ← harmonic]
  have : ∑ x ∈ Finset.range (n + 1), ((n + x + 1 : Nat) : ℚ)⁻¹ ≤ 1 := by
    have h1 : ∀ x ∈ Finset.range (n + 1), ((n + x + 1 : Nat) : ℚ)⁻¹ ≤ ((n + 1 : Nat) : ℚ)⁻¹ := by
      intro x _
      apply inv_anti₀
      · exact_mod_cast Nat.succ_pos n
      · exact_mod_cast (by omega : n + 1 ≤ n + x + 1)
    refine (Finset.sum_le_sum h1).trans ?_
    rw [Finset.sum_const, Finset.card_range, nsmul_eq_mul, mul_inv_cancel₀]
    exact_mod_cast Nat.succ_ne_zero n
  linarith

theorem harmonic_mono {a b : Nat} (h : a ≤ b) : harmonic a ≤ harmonic b := by
  obtain ⟨c, rfl⟩ := Nat.le.dest h
  rw [harmonic, harmonic, Finset.sum_range_add]
  have : 0 ≤ ∑ x ∈ Finset.range c, ((a + x + 1 : Nat) : ℚ)⁻¹ := Finset.sum_nonneg fun x _ => inv_nonneg.2 (Nat.cast_nonneg _)
  linarith

theorem harmonic_pow : ∀ k n : Nat, n < 2 ^ k → harmonic n ≤ k
  | 0, n, h => by
    have : n = 0 := by simpa using h
    subst this; simp
  | k + 1, n, h => by
    have h1 := harmonic_pow k (n / 2) (by rw [Nat.pow_succ] at h; omega)
    have h2 := harmonic_double (n / 2)
    have h3 := harmonic_mono (show n ≤ 2 * (n / 2) + 1 by omega)
    push_cast; linarith

theorem harmonic_log {n m : Nat} (hm : m ≤ n) : harmonic m ≤ (Nat.log2 n : ℚ) + 1 := by
  have := harmonic_pow (Nat.log2 n + 1) m (Nat.lt_of_le_of_lt hm Nat.lt_log2_self)
  push_cast at this
  exact this

/-! ### The list after the insertions of a sequence of indices -/

theorem arrange_length {n : Nat} {s : List Nat} (h : s ∈ orders n) : (arrange s).2.length = n := by
  have : (arrange s).2 ∈ (drawn n).permutations' := by rw [← orders_map]; exact List.mem_map_of_mem h
  rw [(List.mem_permutations'.1 this).length_eq, drawn_length]

theorem order_shape {n : Nat} (hn : n < 2^32) {s : List Nat} (h : s ∈ orders n) {itemsize : Nat} {cs : List (Nat × List Byte × Nat)}
    (hc : cs.map Prod.fst = s) (hl : Lawful itemsize cs) :
    ∃ t T, run (tlist_new itemsize []) (inserts cs) = .ok (t, List.replicate n (.int 1)) ∧ Shape t T (arrange s) := by
  obtain ⟨h1, h2⟩ := orders_mem.1 h
  have hlen : cs.length = n := by rw [← h1, ← hc, List.length_map]
  obtain ⟨t, T, r1, r2⟩ := inserts_shape cs (tlist_new itemsize []) .nil (0, []) (new_shape itemsize []) (by simp [hlen]; omega)
    (by intro k hk; rw [hc]; have := h2 k (by omega); simpa using this) hl (by simp [Tr.addrs]) rfl
  rw [hlen] at r1
  rw [hc] at r2
  exact ⟨t, T, r1, r2⟩

/-- Memory for `n` items. -/
def someCalls (itemsize : Nat) : List Nat → Nat → List (Nat × List Byte × Nat)
  | [], _ => []
  | i :: s, a => (i, List.replicate itemsize 0, a) :: someCalls itemsize s (a + (hdr + itemsize))

theorem someCalls_ok (itemsize : Nat) : ∀ (s : List Nat) (a : Nat), a ≠ 0 →
    (someCalls itemsize s a).map Prod.fst = s ∧ Lawful itemsize (someCalls itemsize s a) ∧ ∀ c ∈ someCalls itemsize s a, a ≤ c.2.2
  | [], a, ha => ⟨rfl, by simp [Lawful, someCalls], by simp [someCalls]⟩
  | i :: s, a, ha => by
    obtain ⟨h1, ⟨h2, h3⟩, h4⟩ := someCalls_ok itemsize s (a + (hdr + itemsize)) (by omega)
    refine ⟨by simp [someCalls, h1], ⟨?_, ?_⟩, ?_⟩
    · intro c hc
      rcases List.mem_cons.1 hc with rfl | hc
      · simp [ha]
      · exact h2 c hc
    · exact List.pairwise_cons.2 ⟨fun c hc => .inl (h4 c hc), h3⟩
    · intro c hc
      rcases List.mem_cons.1 hc with rfl | hc
      · exact Nat.le_refl _
      · have := h4 c hc; omega

theorem sum_const (c : ℚ) (L : List (List Nat)) (f : List Nat → ℚ) : (L.map fun s => f s + c).sum = (L.map f).sum + L.length * c := by
  induction L with
  | nil => simp
  | cons a L ih => simp only [List.map_cons, List.sum_cons, ih, List.length_cons]; push_cast; ring

end Ulz.Tlist

import Verif.Proofs.Guard
/-! Property C73: the guarded allocator. Addresses are numbers, the page of address `a` is `a / ps`. -/
namespace Ulz.Props
open Ulz.Guard

/-- C73: when the system maps free pages and protects the last, the bytes returned are all accessible, start inside the
    mapping, and the byte behind the last is the first of a page that cannot be accessed. No page outside the new mapping changes. -/
theorem guard_alloc_correct (k n B : Nat) (hn : n + 2 * 2 ^ k < 2 ^ 64) (hB : (B + n / 2 ^ k + 2) * 2 ^ k ≤ 2 ^ 64) (s : Space) :
    ∃ s' p, guard_alloc (2 ^ k) s n (some B) false = (s', some p) ∧
      B * 2 ^ k ≤ p ∧
      (∀ a, p ≤ a → a < p + n → s' (a / 2 ^ k) = .rw) ∧
      (∀ a, p + n ≤ a → a < p + n + 2 ^ k → s' (a / 2 ^ k) = .none) ∧
      (∀ i, i < B ∨ B + n / 2 ^ k + 2 ≤ i → s' i = s i) := by
  have hps : 0 < 2 ^ k := Nat.two_pow_pos k
  generalize 2 ^ k = ps at *
  have hd := Nat.div_add_mod n ps
  have hr := Nat.mod_lt n hps
  rw [Nat.mul_comm] at hd
  generalize n / ps = q at *
  generalize n % ps = r at *
  subst hd
  have h1 : (q + 2) * ps = q * ps + 2 * ps := Nat.add_mul ..
  have h3 : (q + 1) * ps = q * ps + ps := Nat.succ_mul ..
  have h4 : (B + (q + 1)) * ps = B * ps + (q * ps + ps) := by rw [Nat.add_mul, h3]
  have h5 : (B + (q + 1) + 1) * ps = B * ps + (q * ps + ps) + ps := by rw [Nat.succ_mul, h4]
  refine ⟨_, _, (alloc_ok hps hr (by omega) (by rwa [← Nat.add_assoc]) s).1, by omega, ?_, ?_, ?_⟩
  · intro a ha hb
    have ha' : B ≤ a / ps := (Nat.le_div_iff_mul_le hps).2 (by omega)
    have hb' : a / ps < B + (q + 1) := (Nat.div_lt_iff_lt_mul hps).2 (by omega)
    unfold mapped setPages
    rw [if_neg (by omega), if_pos (by omega)]
  · intro a ha hb
    have ha' : B + (q + 1) ≤ a / ps := (Nat.le_div_iff_mul_le hps).2 (by omega)
    have hb' : a / ps < B + (q + 1) + 1 := (Nat.div_lt_iff_lt_mul hps).2 (by omega)
    unfold mapped setPages
    rw [if_pos (by omega)]
  · intro i hi
    unfold mapped setPages
    rw [if_neg (by omega), if_neg (by omega)]

example : ∃ s' p, guard_alloc 4096 (fun _ => .unmapped) 5000 (some 16) false = (s', some p) ∧ p = 18 * 4096 - 5000 ∧
    s' (p / 4096) = .rw ∧ s' ((p + 4999) / 4096) = .rw ∧ s' ((p + 5000) / 4096) = .none := by
  obtain ⟨s', p, h, _, h2, h3, _⟩ := guard_alloc_correct 12 5000 16 (by decide) (by decide) (fun _ => .unmapped)
  have hp : (guard_alloc 4096 (fun _ => .unmapped) 5000 (some 16) false).2 = some (18 * 4096 - 5000) := by decide
  have h' : guard_alloc 4096 (fun _ => .unmapped) 5000 (some 16) false = (s', some p) := h
  rw [h'] at hp
  refine ⟨s', p, h', by simpa using hp, h2 _ (by omega) (by omega), h2 _ (by omega) (by omega), h3 _ (by omega) (by omega)⟩

/-- C73: when the system refuses the mapping or its protection, the result is NULL and the address space is as before. -/
theorem guard_alloc_fails (k n B : Nat) (hn : n + 2 * 2 ^ k < 2 ^ 64) (hB : (B + n / 2 ^ k + 2) * 2 ^ k ≤ 2 ^ 64) (s : Space)
    (hs : ∀ i, B ≤ i → i < B + n / 2 ^ k + 2 → s i = .unmapped) (refuse : Bool) :
    guard_alloc (2 ^ k) s n none refuse = (s, none) ∧ guard_alloc (2 ^ k) s n (some B) true = (s, none) := by
  refine ⟨rfl, ?_⟩
  have hps : 0 < 2 ^ k := Nat.two_pow_pos k
  generalize 2 ^ k = ps at *
  have hd := Nat.div_add_mod n ps
  have hr := Nat.mod_lt n hps
  rw [Nat.mul_comm] at hd
  generalize n / ps = q at *
  generalize n % ps = r at *
  subst hd
  have h1 : (q + 2) * ps = q * ps + 2 * ps := Nat.add_mul ..
  rw [(alloc_ok hps hr (by omega) (by rwa [← Nat.add_assoc]) s).2]
  congr 1
  funext i
  unfold setPages
  by_cases h : B ≤ i ∧ i < B + (q + 2)
  · rw [if_pos h, hs i h.1 (by omega)]
  · rw [if_neg h, if_neg h]

example : guard_alloc 4096 (fun i => if i < 16 then .rw else .unmapped) 5000 (some 16) true = (fun i => if i < 16 then .rw else .unmapped, none) :=
  (guard_alloc_fails 12 5000 16 (by decide) (by decide) _ (fun i h _ => if_neg (by omega)) false).2

/-- C73: freeing what was allocated makes the address space what it was before, if the size is not a multiple of the page
    size; ... -/
theorem guard_free_exact (k n B : Nat) (hn : n + 2 * 2 ^ k < 2 ^ 64) (hB : (B + n / 2 ^ k + 2) * 2 ^ k ≤ 2 ^ 64) (s : Space)
    (hs : ∀ i, B ≤ i → i < B + n / 2 ^ k + 2 → s i = .unmapped) (hm : n % 2 ^ k ≠ 0) (s' : Space) (p : Nat)
    (h : guard_alloc (2 ^ k) s n (some B) false = (s', some p)) :
    guard_free (2 ^ k) s' p n = s := by
  have hps : 0 < 2 ^ k := Nat.two_pow_pos k
  have hk : k < 64 := by
    apply Classical.byContradiction
    intro hk
    have := Nat.pow_le_pow_right (show 0 < 2 by decide) (show 64 ≤ k by omega)
    omega
  have hd := Nat.div_add_mod n (2 ^ k)
  have hr := Nat.mod_lt n hps
  rw [Nat.mul_comm] at hd
  generalize n / 2 ^ k = q at *
  generalize n % 2 ^ k = r at *
  subst hd
  have h1 : (q + 2) * 2 ^ k = q * 2 ^ k + 2 * 2 ^ k := Nat.add_mul ..
  rw [Nat.add_assoc] at hB
  rw [(alloc_ok hps hr (by omega) hB s).1] at h
  injection h with ha hb
  injection hb with hb
  subst ha hb
  rw [free_ok hk hr (by omega) hB, if_neg hm]
  funext i
  unfold mapped setPages
  by_cases h : B ≤ i ∧ i < B + (q + 2)
  · rw [if_pos h, hs i h.1 (by omega)]
  · rw [if_neg h, if_neg (by omega), if_neg h]

/-- C73: ... if it is a multiple (0 included), then the first page of the mapping stays mapped, and nothing else. -/
theorem guard_free_leaks (k n B : Nat) (hn : n + 2 * 2 ^ k < 2 ^ 64) (hB : (B + n / 2 ^ k + 2) * 2 ^ k ≤ 2 ^ 64) (s : Space)
    (hs : ∀ i, B ≤ i → i < B + n / 2 ^ k + 2 → s i = .unmapped) (hm : n % 2 ^ k = 0) (s' : Space) (p : Nat)
    (h : guard_alloc (2 ^ k) s n (some B) false = (s', some p)) :
    guard_free (2 ^ k) s' p n B = .rw ∧ ∀ i, i ≠ B → guard_free (2 ^ k) s' p n i = s i := by
  have hps : 0 < 2 ^ k := Nat.two_pow_pos k
  have hk : k < 64 := by
    apply Classical.byContradiction
    intro hk
    have := Nat.pow_le_pow_right (show 0 < 2 by decide) (show 64 ≤ k by omega)
    omega
  have hd := Nat.div_add_mod n (2 ^ k)
  have hr := Nat.mod_lt n hps
  rw [Nat.mul_comm] at hd
  generalize n / 2 ^ k = q at *
  generalize n % 2 ^ k = r at *
  subst hd
  have h1 : (q + 2) * 2 ^ k = q * 2 ^ k + 2 * 2 ^ k := Nat.add_mul ..
  rw [Nat.add_assoc] at hB
  rw [(alloc_ok hps hr (by omega) hB s).1] at h
  injection h with ha hb
  injection hb with hb
  subst ha hb
  rw [free_ok hk hr (by omega) hB, if_pos hm]
  unfold mapped setPages
  constructor
  · rw [if_neg (by omega), if_neg (by omega), if_pos (by omega)]
  · intro i hi
    by_cases h : B ≤ i ∧ i < B + (q + 2)
    · rw [if_pos (by omega), hs i h.1 (by omega)]
    · rw [if_neg (by omega), if_neg (by omega), if_neg h]

example : ∃ s' p, guard_alloc 4096 (fun _ => .unmapped) 5000 (some 16) false = (s', some p) ∧ guard_free 4096 s' p 5000 = fun _ => .unmapped := by
  obtain ⟨s', p, h, _⟩ := guard_alloc_correct 12 5000 16 (by decide) (by decide) (fun _ => .unmapped)
  exact ⟨s', p, h, guard_free_exact 12 5000 16 (by decide) (by decide) _ (fun _ _ _ => rfl) (by decide) s' p h⟩

example : ∃ s' p, guard_alloc 4096 (fun _ => .unmapped) 8192 (some 16) false = (s', some p) ∧ guard_free 4096 s' p 8192 16 = .rw := by
  obtain ⟨s', p, h, _⟩ := guard_alloc_correct 12 8192 16 (by decide) (by decide) (fun _ => .unmapped)
  exact ⟨s', p, h, (guard_free_leaks 12 8192 16 (by decide) (by decide) _ (fun _ _ _ => rfl) (by decide) s' p h).1⟩

/-- C73: the bound on the size is needed: for the sizes of the last page below 2^64 the length of the mapping wraps to one page,
    which is then made inaccessible, and the call returns a pointer although no page has become accessible. -/
theorem guard_alloc_wraps (k n B : Nat) (hk : k < 64) (hn : 2 ^ 64 - 2 ^ k ≤ n) (hn' : n < 2 ^ 64) (hB : (B + 1) * 2 ^ k ≤ 2 ^ 64) (s : Space) :
    ∃ s' p, guard_alloc (2 ^ k) s n (some B) false = (s', some p) ∧ s' B = .none ∧ ∀ i, i ≠ B → s' i = s i := by
  have hps : 0 < 2 ^ k := Nat.two_pow_pos k
  have e : 2 ^ 64 = 2 ^ (64 - k) * 2 ^ k := by rw [← Nat.pow_add]; congr 1; omega
  have hM : 0 < 2 ^ (64 - k) := Nat.two_pow_pos _
  generalize hpk : 2 ^ k = ps at *
  generalize 2 ^ (64 - k) = M at *
  have hps2 : ps < 2 ^ 64 := by rw [← hpk]; exact Nat.pow_lt_pow_right (by decide) hk
  have hM1 : (M - 1) * ps = M * ps - ps := by rw [Nat.sub_mul, Nat.one_mul]
  have hq : n / ps = M - 1 := by
    apply Nat.div_eq_of_lt_le
    · omega
    · rw [Nat.sub_add_cancel hM]; omega
  have e0 : 1 + (M - 1) = M := by omega
  have hMle : M ≤ M * ps := Nat.le_mul_of_pos_right _ hps
  have hB1 : (B + 1) * ps = B * ps + ps := Nat.succ_mul ..
  have w1 : szt (szt (szt M + 1) * ps) = ps := by
    unfold szt
    rw [Nat.mod_mul_mod, Nat.add_mul, Nat.one_mul, Nat.add_mod, Nat.mod_mul_mod, ← e, Nat.mod_self, Nat.zero_add, Nat.mod_mod,
      Nat.mod_eq_of_lt hps2]
  have w2 : szt (szt M * ps) = 0 := by
    unfold szt
    rw [Nat.mod_mul_mod, ← e, Nat.mod_self]
  unfold guard_alloc mmap
  simp only
  rw [hq, e0, w1, w2, if_neg (by omega)]
  simp only
  rw [szt_of_lt (show B * ps + 0 < 2 ^ 64 by omega), Nat.add_zero]
  unfold mprotect
  rw [Nat.mul_mod_left, Nat.mul_div_cancel _ hps, pagesOf_one hps, if_neg (by simp)]
  refine ⟨_, _, rfl, ?_, ?_⟩
  · unfold setPages; rw [if_pos (by omega)]
  · intro i hi
    unfold setPages
    rw [if_neg (by omega), if_neg (by omega)]

/-- C73: for the sizes of the page before that the length of the mapping wraps to 0: the system refuses, and the result is NULL. So the
    bound of the other statements leaves out no size. -/
theorem guard_alloc_wraps_zero (k n : Nat) (hk : k < 64) (hn : 2 ^ 64 - 2 * 2 ^ k ≤ n) (hn' : n < 2 ^ 64 - 2 ^ k) (s : Space)
    (ans : Option Nat) (refuse : Bool) : guard_alloc (2 ^ k) s n ans refuse = (s, none) := by
  have hps : 0 < 2 ^ k := Nat.two_pow_pos k
  have e : 2 ^ 64 = 2 ^ (64 - k) * 2 ^ k := by rw [← Nat.pow_add]; congr 1; omega
  have hM : 2 ≤ 2 ^ (64 - k) := by
    have : 2 ^ 1 ≤ 2 ^ (64 - k) := Nat.pow_le_pow_right (by decide) (by omega)
    omega
  generalize hpk : 2 ^ k = ps at *
  generalize 2 ^ (64 - k) = M at *
  have hM2 : (M - 2) * ps = M * ps - 2 * ps := by rw [Nat.sub_mul]
  have hM1 : (M - 1) * ps = M * ps - ps := by rw [Nat.sub_mul, Nat.one_mul]
  have hMp : 2 * ps ≤ M * ps := Nat.mul_le_mul_right _ hM
  have hq : n / ps = M - 2 := by
    apply Nat.div_eq_of_lt_le
    · omega
    · rw [show M - 2 + 1 = M - 1 by omega]; omega
  have w1 : szt (szt (szt (1 + (M - 2)) + 1) * ps) = 0 := by
    have h1 : 1 + (M - 2) = M - 1 := by omega
    have h2 : M ≤ M * ps := Nat.le_mul_of_pos_right _ hps
    rw [h1, szt_of_lt (show M - 1 < 2 ^ 64 by omega), show M - 1 + 1 = M by omega]
    unfold szt
    rw [Nat.mod_mul_mod, ← e, Nat.mod_self]
  unfold guard_alloc mmap
  simp only
  rw [hq, w1]
  cases ans <;> simp

example : guard_alloc 4096 (fun _ => .unmapped) (2 ^ 64 - 8192) (some 16) false = (fun _ => .unmapped, none) :=
  guard_alloc_wraps_zero 12 (2 ^ 64 - 8192) (by decide) (by decide) (by decide) _ _ _

example : ∃ s' p, guard_alloc 4096 (fun _ => .unmapped) (2 ^ 64 - 1) (some 16) false = (s', some p) ∧ s' 16 = .none :=
  let ⟨s', p, h, h1, _⟩ := guard_alloc_wraps 12 (2 ^ 64 - 1) 16 (by decide) (by decide) (by decide) (by decide) (fun _ => .unmapped)
  ⟨s', p, h, h1⟩

end Ulz.Props

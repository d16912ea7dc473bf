import Verif.Model.Guard
import Verif.Proofs.Mem
/-! Lemmas about guard_alloc. -/
namespace Ulz.Guard

theorem pagesOf_mul {ps : Nat} (h : 0 < ps) (k : Nat) : pagesOf ps (k * ps) = k := by
  unfold pagesOf
  rw [show k * ps + ps - 1 = (ps - 1) + k * ps by omega, Nat.add_mul_div_right _ _ h, Nat.div_eq_of_lt (by omega), Nat.zero_add]

theorem pagesOf_one {ps : Nat} (h : 0 < ps) : pagesOf ps ps = 1 := by
  have := pagesOf_mul h 1
  rwa [Nat.one_mul] at this

theorem off_spec {k q r : Nat} (hk : k ≤ 64) (hr : r < 2 ^ k) (hn : q * 2 ^ k + r < 2 ^ 64) :
    sztSub 0 (q * 2 ^ k + r) &&& (2 ^ k - 1) = if r = 0 then 0 else 2 ^ k - r := by
  rw [Nat.and_two_pow_sub_one_eq_mod]
  unfold sztSub
  rw [Nat.mod_eq_of_lt hn, Nat.zero_add]
  have e : 2 ^ 64 = 2 ^ (64 - k) * 2 ^ k := by rw [← Nat.pow_add]; congr 1; omega
  rw [Nat.mod_mod_of_dvd _ ⟨2 ^ (64 - k), by rw [e, Nat.mul_comm]⟩]
  generalize 2 ^ k = ps at *
  generalize 2 ^ (64 - k) = M at *
  rw [e] at hn ⊢
  have hqM : q < M := by
    apply Classical.byContradiction
    intro h
    have := Nat.mul_le_mul_right ps (show M ≤ q by omega)
    omega
  have hmul := Nat.mul_le_mul_right ps (show q + 1 ≤ M by omega)
  rw [Nat.succ_mul] at hmul
  by_cases hr0 : r = 0
  · subst hr0
    rw [if_pos rfl, Nat.add_zero, ← Nat.sub_mul, Nat.mul_mod_left]
  · rw [if_neg hr0]
    have : M * ps - (q * ps + r) = (ps - r) + (M - (q + 1)) * ps := by
      rw [Nat.sub_mul, Nat.succ_mul]; omega
    rw [this, Nat.add_mul_mod_self_right, Nat.mod_eq_of_lt (by omega)]

/-- The mapping as guard_alloc leaves it. -/
def mapped (s : Space) (B q : Nat) : Space := setPages (setPages s B (q + 2) .rw) (B + (q + 1)) 1 .none

theorem alloc_ok {ps q r B : Nat} (hps : 0 < ps) (hr : r < ps) (hn : (q + 2) * ps < 2 ^ 64) (hB : (B + (q + 2)) * ps ≤ 2 ^ 64) (s : Space) :
    guard_alloc ps s (q * ps + r) (some B) false = (mapped s B q, some ((B + (q + 1)) * ps - (q * ps + r))) ∧
    guard_alloc ps s (q * ps + r) (some B) true = (setPages (setPages s B (q + 2) .rw) B (q + 2) .unmapped, none) := by
  have hq : (q * ps + r) / ps = q := by
    rw [Nat.add_comm, Nat.add_mul_div_right _ _ hps, Nat.div_eq_of_lt hr, Nat.zero_add]
  have hle : q + 2 ≤ (q + 2) * ps := Nat.le_mul_of_pos_right _ hps
  have h1 : (q + 2) * ps = q * ps + 2 * ps := Nat.add_mul ..
  have h2 : (B + (q + 2)) * ps = B * ps + (q * ps + 2 * ps) := by rw [Nat.add_mul, h1]
  have h3 : (q + 1) * ps = q * ps + ps := Nat.succ_mul ..
  have h4 : (B + (q + 1)) * ps = B * ps + (q * ps + ps) := by rw [Nat.add_mul, h3]
  have e1 : szt (1 + (q * ps + r) / ps) = q + 1 := by rw [hq, Nat.add_comm]; exact szt_of_lt (by omega)
  have e2 : szt (szt (q + 1 + 1) * ps) = (q + 2) * ps := by
    rw [szt_of_lt (show q + 1 + 1 < 2 ^ 64 by omega)]; exact szt_of_lt hn
  have e3 : szt (B * ps + szt ((q + 1) * ps)) = (B + (q + 1)) * ps := by
    rw [szt_of_lt (show (q + 1) * ps < 2 ^ 64 by omega), h4, h3]; exact szt_of_lt (by omega)
  have e4 : (B + (q + 1)) * ps % ps = 0 := Nat.mul_mod_left ..
  have e5 : (B + (q + 1)) * ps / ps = B + (q + 1) := Nat.mul_div_cancel _ hps
  have e6 : (q + 2) * ps ≠ 0 := by omega
  unfold guard_alloc mmap
  simp only
  rw [e1, e2, if_neg e6]
  simp only
  rw [e3, pagesOf_mul hps]
  unfold mprotect
  rw [e4, e5, pagesOf_one hps]
  constructor
  · rw [if_neg (by simp)]
    simp only
    rw [sztSub_of_le (by omega) (by omega)]
    rfl
  · rw [if_pos (by simp)]
    simp only
    unfold munmap
    rw [if_neg (by rw [Nat.mul_mod_left]; omega), Nat.mul_div_cancel _ hps, pagesOf_mul hps]

theorem free_ok {k q r B : Nat} (hk : k < 64) (hr : r < 2 ^ k) (hn : (q + 2) * 2 ^ k < 2 ^ 64) (hB : (B + (q + 2)) * 2 ^ k ≤ 2 ^ 64) (s : Space) :
    guard_free (2 ^ k) s ((B + (q + 1)) * 2 ^ k - (q * 2 ^ k + r)) (q * 2 ^ k + r) =
      if r = 0 then setPages s (B + 1) (q + 1) .unmapped else setPages s B (q + 2) .unmapped := by
  have hps : 0 < 2 ^ k := Nat.two_pow_pos k
  unfold guard_free
  have h1 : (q + 2) * 2 ^ k = q * 2 ^ k + 2 * 2 ^ k := Nat.add_mul ..
  rw [off_spec (by omega) hr (by omega)]
  generalize 2 ^ k = ps at *
  have h2 : (B + (q + 2)) * ps = B * ps + (q * ps + 2 * ps) := by rw [Nat.add_mul, h1]
  have h3 : (q + 1) * ps = q * ps + ps := Nat.succ_mul ..
  have h4 : (B + (q + 1)) * ps = B * ps + (q * ps + ps) := by rw [Nat.add_mul, h3]
  have h5 : (B + 1) * ps = B * ps + ps := Nat.succ_mul ..
  simp only
  by_cases hr0 : r = 0
  · subst hr0
    simp only [if_true]
    rw [sztSub_of_le (by omega) (by omega), szt_of_lt (show q * ps + 0 + 0 < 2 ^ 64 by omega), szt_of_lt (by omega),
      show (B + (q + 1)) * ps - (q * ps + 0) - 0 = (B + 1) * ps by omega, show q * ps + 0 + 0 + ps = (q + 1) * ps by omega]
    unfold munmap
    rw [if_neg (by rw [Nat.mul_mod_left]; omega), Nat.mul_div_cancel _ hps, pagesOf_mul hps]
  · simp only [if_neg hr0]
    rw [sztSub_of_le (by omega) (by omega), szt_of_lt (show q * ps + r + (ps - r) < 2 ^ 64 by omega), szt_of_lt (by omega),
      show (B + (q + 1)) * ps - (q * ps + r) - (ps - r) = B * ps by omega, show q * ps + r + (ps - r) + ps = (q + 2) * ps by omega]
    unfold munmap
    rw [if_neg (by rw [Nat.mul_mod_left]; omega), Nat.mul_div_cancel _ hps, pagesOf_mul hps]

end Ulz.Guard

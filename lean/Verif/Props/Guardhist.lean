import Verif.Proofs.Guardhist
/-! Working with the guarded allocator (C212). The page of address `a` is `a / ps`, the page size is `2 ^ k`. -/
namespace Ulz.Props
open Ulz.Guard Ulz.Guard.Spec

/-- C212: after any sequence of guard_alloc and guard_free, with any refusals by the system: all bytes of every allocation in use are accessible and followed by
    a page that is not; no page belongs to two of them; and what is left behind is one accessible page for each allocation given back whose size was a
    multiple of the page size, nothing else. -/
theorem guard_history (k : Nat) (s0 : Space) (ops : List Op) (hv : Valid (2 ^ k) ⟨s0, [], []⟩ ops) :
    let st := run (2 ^ k) ⟨s0, [], []⟩ ops
    (∀ p n, (p, n) ∈ st.live →
      (∀ a, p ≤ a → a < p + n → st.space (a / 2 ^ k) = .rw) ∧ (∀ a, p + n ≤ a → a < p + n + 2 ^ k → st.space (a / 2 ^ k) = .none)) ∧
    (st.live.Pairwise fun e f => ∀ i, ¬(Has (2 ^ k) e i ∧ Has (2 ^ k) f i)) ∧
    ∃ leaked : List Nat, leaked.Nodup ∧ leaked.length = (st.freed.filter fun n => n % 2 ^ k = 0).length ∧
      (∀ i ∈ leaked, s0 i = .unmapped ∧ st.space i = .rw ∧ ∀ e ∈ st.live, ¬Has (2 ^ k) e i) ∧
      ∀ i, i ∉ leaked → (∀ e ∈ st.live, ¬Has (2 ^ k) e i) → st.space i = s0 i := by
  obtain ⟨leaked, h⟩ := run_inv ops (inv_start (2 ^ k) s0) hv
  refine ⟨?_, h.apart, leaked, h.nodup, h.count, h.leak, h.rest⟩
  intro p n he
  obtain ⟨B, hA, h1, h2⟩ := h.live _ he
  exact at_bytes (Nat.two_pow_pos k) hA h1 h2

/-- Two allocations, the first refused once, one given back, another made on its pages: the hypothesis can be met. -/
example : Valid (2 ^ 12) ⟨fun _ => .unmapped, [], []⟩
    [.alloc 80 none false, .alloc 80 (some 16) false, .alloc 8192 (some 18) false, .free 1, .alloc 100 (some 19) false, .free 0] := by
  refine ⟨trivial, ⟨by decide, by decide, fun _ _ _ => rfl⟩, ⟨by decide, by decide, ?_⟩, trivial, ⟨by decide, by decide, ?_⟩, trivial, trivial⟩
  · intro i h1 h2
    have : i = 18 ∨ i = 19 ∨ i = 20 ∨ i = 21 := by omega
    rcases this with rfl | rfl | rfl | rfl <;> decide
  · intro i h1 h2
    have : i = 19 ∨ i = 20 := by omega
    rcases this with rfl | rfl <;> decide

/-- C212: the address is aligned to a power of two, up to the page size, exactly if the size is a multiple of it: unlike malloc, guard_alloc aligns only as
    far as the size demands. -/
theorem guard_alloc_aligned (k n B : Nat) (hn : n + 2 * 2 ^ k < 2 ^ 64) (hB : (B + n / 2 ^ k + 2) * 2 ^ k ≤ 2 ^ 64) (s : Space) :
    ∃ s' p, guard_alloc (2 ^ k) s n (some B) false = (s', some p) ∧ ∀ j ≤ k, (p % 2 ^ j = 0 ↔ n % 2 ^ j = 0) := by
  have hps : 0 < 2 ^ k := Nat.two_pow_pos k
  obtain ⟨e, hA, -⟩ := alloc_some hps hn hB s
  refine ⟨_, _, e, fun j hj => ?_⟩
  have hd : 2 ^ j ∣ 2 ^ k := Nat.pow_dvd_pow 2 hj
  have h1 : 2 ^ j ∣ (B + 1) * 2 ^ k := Nat.dvd_trans hd (Nat.dvd_mul_left _ _)
  have hle : n % 2 ^ k ≤ (B + 1) * 2 ^ k := by
    have := Nat.mod_lt n hps
    have : (B + 1) * 2 ^ k = B * 2 ^ k + 2 ^ k := Nat.succ_mul ..
    omega
  have hm : n % 2 ^ k % 2 ^ j = n % 2 ^ j := Nat.mod_mod_of_dvd _ hd
  rw [← hm, ← Nat.dvd_iff_mod_eq_zero, ← Nat.dvd_iff_mod_eq_zero]
  exact ⟨fun h => by
    have := Nat.dvd_sub h1 h
    rwa [show (B + 1) * 2 ^ k - ((B + 1) * 2 ^ k - n % 2 ^ k) = n % 2 ^ k by omega] at this, fun h => Nat.dvd_sub h1 h⟩

/-- Five bytes cannot hold an `int` at an aligned address. -/
example : ∃ s' p, guard_alloc 4096 (fun _ => .unmapped) 5 (some 16) false = (s', some p) ∧ p % 4 ≠ 0 := by
  obtain ⟨s', p, e, h⟩ := guard_alloc_aligned 12 5 16 (by decide) (by decide) fun _ => .unmapped
  exact ⟨s', p, e, fun hc => absurd ((h 2 (by decide)).1 hc) (by decide)⟩

/-- C212: an access before the start is not noticed within the first `2 ^ k - n % 2 ^ k` bytes, which are at least one and at most a page; the byte before those
    is on a page that does not belong to the allocation and is as it was. -/
theorem guard_underrun (k n B : Nat) (hn : n + 2 * 2 ^ k < 2 ^ 64) (hB : (B + n / 2 ^ k + 2) * 2 ^ k ≤ 2 ^ 64) (hB0 : 0 < B) (s : Space) :
    ∃ s' p, guard_alloc (2 ^ k) s n (some B) false = (s', some p) ∧
      (∀ d, 1 ≤ d → d ≤ 2 ^ k - n % 2 ^ k → s' ((p - d) / 2 ^ k) = .rw) ∧
      (p - (2 ^ k - n % 2 ^ k) - 1) / 2 ^ k = B - 1 ∧ s' (B - 1) = s (B - 1) := by
  have hps : 0 < 2 ^ k := Nat.two_pow_pos k
  obtain ⟨e, hA, -⟩ := alloc_some hps hn hB s
  refine ⟨_, _, e, ?_, ?_, ?_⟩
  · intro d h1 h2
    have hr := Nat.mod_lt n hps
    generalize 2 ^ k = ps at *
    have e1 : (B + 1) * ps = B * ps + ps := Nat.succ_mul ..
    have : ((B + 1) * ps - n % ps - d) / ps = B := by
      rw [show (B + 1) * ps - n % ps - d = (ps - n % ps - d) + B * ps by omega, Nat.add_mul_div_right _ _ hps, Nat.div_eq_of_lt (by omega), Nat.zero_add]
    rw [this]
    exact mapped_in (Nat.le_refl _) (in_first1 _ _)
  · have hr := Nat.mod_lt n hps
    generalize 2 ^ k = ps at *
    obtain ⟨b, rfl⟩ : ∃ b, B = b + 1 := ⟨B - 1, by omega⟩
    have e1 : (b + 1 + 1) * ps = (b + 1) * ps + ps := Nat.succ_mul ..
    have e2 : (b + 1) * ps = b * ps + ps := Nat.succ_mul ..
    rw [show (b + 1 + 1) * ps - n % ps - (ps - n % ps) - 1 = (ps - 1) + b * ps by omega, Nat.add_mul_div_right _ _ hps, Nat.div_eq_of_lt (by omega)]
    omega
  · exact mapped_out (by omega)

example : ∃ s' p, guard_alloc 4096 (fun _ => .unmapped) 80 (some 16) false = (s', some p) ∧ s' ((p - 1) / 4096) = .rw ∧ s' ((p - 4016) / 4096) = .rw ∧
    s' ((p - 4017) / 4096) = .unmapped := by
  obtain ⟨s', p, e, h1, h2, h3⟩ := guard_underrun 12 80 16 (by decide) (by decide) (by decide) fun _ => .unmapped
  refine ⟨s', p, e, h1 1 (by decide) (by decide), h1 4016 (by decide) (by decide), ?_⟩
  have h2' : (p - 4017) / 4096 = 15 := by
    simp only [show (2 : Nat) ^ 12 = 4096 from rfl, Nat.reduceMod, Nat.reduceSub, Nat.sub_sub, Nat.reduceAdd] at h2
    exact h2
  rw [h2']
  exact h3

/-- C212: guard_free with another size `m` than the `n` of the allocation. If the sizes differ modulo the page size, nothing is given back. Otherwise exactly as
    many pages are unmapped as an allocation of `m` bytes at this address would have: too small a size leaves the last pages, too large a size unmaps
    pages behind the allocation, whoever they belong to. -/
theorem guard_free_other_size (k n m B : Nat) (hB0 : 0 < B) (hn : n + 2 * 2 ^ k < 2 ^ 64) (hB : (B + n / 2 ^ k + 2) * 2 ^ k ≤ 2 ^ 64)
    (hm : m + 2 * 2 ^ k < 2 ^ 64) (hBm : (B + m / 2 ^ k + 2) * 2 ^ k ≤ 2 ^ 64) (s : Space) :
    ∃ s1 p, guard_alloc (2 ^ k) s n (some B) false = (s1, some p) ∧ ∀ s',
      (m % 2 ^ k ≠ n % 2 ^ k → guard_free (2 ^ k) s' p m = s') ∧
      (m % 2 ^ k = n % 2 ^ k → ∀ i, guard_free (2 ^ k) s' p m i =
        if (if n % 2 ^ k = 0 then B + 1 else B) ≤ i ∧ i ≤ B + m / 2 ^ k + 1 then .unmapped else s' i) := by
  have hps : 0 < 2 ^ k := Nat.two_pow_pos k
  obtain ⟨e, hA, -⟩ := alloc_some hps hn hB s
  refine ⟨_, _, e, fun s' => ⟨fun hne => ?_, fun he i => ?_⟩⟩
  · have hk : k < 64 := by
      apply Classical.byContradiction
      intro hk
      have := Nat.pow_le_pow_right (show 0 < 2 by omega) (show 64 ≤ k by omega)
      omega
    have hoff := off_spec (k := k) (q := m / 2 ^ k) (r := m % 2 ^ k) (by omega) (Nat.mod_lt _ hps)
      (by have : m / 2 ^ k * 2 ^ k + m % 2 ^ k = m := by rw [Nat.mul_comm]; exact Nat.div_add_mod m _
          omega)
    rw [show m / 2 ^ k * 2 ^ k + m % 2 ^ k = m by rw [Nat.mul_comm]; exact Nat.div_add_mod m _] at hoff
    unfold guard_free
    simp only
    rw [hoff]
    have hrn := Nat.mod_lt n hps
    have hrm := Nat.mod_lt m hps
    unfold munmap
    generalize 2 ^ k = ps at *
    have e1 : (B + 1) * ps = B * ps + ps := Nat.succ_mul ..
    have e0 : (B + n / ps + 2) * ps = B * ps + n / ps * ps + 2 * ps := by rw [Nat.add_mul, Nat.add_mul]
    obtain ⟨b, rfl⟩ : ∃ b, B = b + 1 := ⟨B - 1, by omega⟩
    have e2 : (b + 1) * ps = b * ps + ps := Nat.succ_mul ..
    rw [if_pos]
    left
    by_cases h0 : m % ps = 0
    · rw [if_pos h0, sztSub_of_le (by omega) (by omega), show (b + 1 + 1) * ps - n % ps - 0 = (ps - n % ps) + (b + 1) * ps by omega,
        Nat.add_mul_mod_self_right, Nat.mod_eq_of_lt (by omega)]
      omega
    · rw [if_neg h0, sztSub_of_le (by omega) (by omega)]
      by_cases hlt : n % ps ≤ m % ps
      · rw [show (b + 1 + 1) * ps - n % ps - (ps - m % ps) = (m % ps - n % ps) + (b + 1) * ps by omega, Nat.add_mul_mod_self_right,
          Nat.mod_eq_of_lt (by omega)]
        omega
      · rw [show (b + 1 + 1) * ps - n % ps - (ps - m % ps) = (ps + m % ps - n % ps) + b * ps by omega, Nat.add_mul_mod_self_right,
          Nat.mod_eq_of_lt (by omega)]
        omega
  · rw [free_at hA he hm hBm]
    generalize n % 2 ^ k = r
    generalize m / 2 ^ k = q
    by_cases h0 : r = 0
    · simp only [if_pos h0]
      unfold setPages
      by_cases hi : B + 1 ≤ i ∧ i ≤ B + q + 1
      · rw [if_pos (by omega), if_pos hi]
      · rw [if_neg (by omega), if_neg hi]
    · simp only [if_neg h0]
      unfold setPages
      by_cases hi : B ≤ i ∧ i ≤ B + q + 1
      · rw [if_pos (by omega), if_pos hi]
      · rw [if_neg (by omega), if_neg hi]

/-- 80 bytes at page 16, given back as 4176: page 18 is unmapped too, which may be another allocation. -/
example : ∃ s1 p, guard_alloc 4096 (fun _ => .unmapped) 80 (some 16) false = (s1, some p) ∧
    guard_free 4096 (fun _ => .rw) p 4176 18 = .unmapped ∧ guard_free 4096 (fun _ => .rw) p 81 = (fun _ => .rw) := by
  obtain ⟨s1, p, e, h⟩ := guard_free_other_size 12 80 4176 16 (by decide) (by decide) (by decide) (by decide) (by decide) fun _ => .unmapped
  obtain ⟨s2, p', e', h'⟩ := guard_free_other_size 12 80 81 16 (by decide) (by decide) (by decide) (by decide) (by decide) fun _ => .unmapped
  rw [e] at e'
  cases e'
  exact ⟨s1, p, e, (h _).2 (by decide) 18, (h' _).1 (by decide)⟩

/-- C212: what tests/guard_alloc_test.c expects holds for every page size of at least 128 bytes, wherever the system places the mappings: the last byte of 80 and of
    three pages and 80 can be written, the byte behind the latter cannot. -/
theorem guard_test_passes (k B B' : Nat) (hk : 7 ≤ k) (hn : 6 * 2 ^ k < 2 ^ 64) (hB : (B + 2) * 2 ^ k ≤ 2 ^ 64) (hB' : (B' + 5) * 2 ^ k ≤ 2 ^ 64)
    (s t : Space) :
    (∃ s' p, guard_alloc (2 ^ k) s 80 (some B) false = (s', some p) ∧ s' ((p + 79) / 2 ^ k) = .rw) ∧
    (∃ s' p, guard_alloc (2 ^ k) t (2 ^ k * 3 + 80) (some B') false = (s', some p) ∧ s' ((p + (2 ^ k * 3 + 79)) / 2 ^ k) = .rw ∧
      s' ((p + (2 ^ k * 3 + 80)) / 2 ^ k) = .none) := by
  have h128 : 2 ^ 7 ≤ 2 ^ k := Nat.pow_le_pow_right (by omega) hk
  have hps : 0 < 2 ^ k := Nat.two_pow_pos k
  have d1 : 80 / 2 ^ k = 0 := Nat.div_eq_of_lt (by omega)
  have d2 : (2 ^ k * 3 + 80) / 2 ^ k = 3 := by
    rw [Nat.mul_add_div hps, d1]
  constructor
  · obtain ⟨e, hA, -⟩ := alloc_some hps (n := 80) (B := B) (by omega) (by rw [d1]; exact hB) s
    refine ⟨_, _, e, ?_⟩
    exact (at_bytes hps hA (fun i h1 h2 => mapped_in h1 h2) mapped_guard).1 _ (by omega) (by omega)
  · obtain ⟨e, hA, -⟩ := alloc_some hps (n := 2 ^ k * 3 + 80) (B := B') (by omega) (by rw [d2]; exact hB') t
    have hb := at_bytes hps hA (fun i h1 h2 => mapped_in (s := t) h1 h2) mapped_guard
    exact ⟨_, _, e, hb.1 _ (by omega) (by omega), hb.2 _ (by omega) (by omega)⟩

end Ulz.Props

import Verif.Proofs.Stringptr
import Verif.Props.Hashlist
import Mathlib.Data.List.Nodup
namespace Ulz.Flood
open Ulz.Stringptr Ulz.Stringptr.Spec

theorem xor_nibble (u n k : Nat) (hn : n < 16) : (16 * u + n) ^^^ (16 * k) = 16 * (u ^^^ k) + n := by
  have h1 : ((16 * u + n) ^^^ (16 * k)) / 2 ^ 4 = u ^^^ k := by
    rw [Nat.xor_div_two_pow]
    congr 1 <;> omega
  have h2 : ((16 * u + n) ^^^ (16 * k)) % 2 ^ 4 = n := by
    rw [Nat.xor_mod_two_pow]
    have e1 : (16 * u + n) % 2 ^ 4 = n := by omega
    have e2 : (16 * k) % 2 ^ 4 = 0 := by omega
    rw [e1, e2, Nat.xor_zero]
  have := Nat.div_add_mod ((16 * u + n) ^^^ (16 * k)) (2 ^ 4)
  rw [h1, h2] at this
  omega

theorem xor_byte (r m : Nat) (hm : m < 256) : (r ^^^ m) / 256 = r / 256 ∧ (r ^^^ m) % 256 = r % 256 ^^^ m := by
  constructor
  · have := Nat.xor_div_two_pow (n := 8) (a := r) (b := m)
    rw [show (2 : Nat) ^ 8 = 256 from rfl] at this
    rw [this, Nat.div_eq_of_lt hm, Nat.xor_zero]
  · have := Nat.xor_mod_two_pow (n := 8) (a := r) (b := m)
    rw [show (2 : Nat) ^ 8 = 256 from rfl] at this
    rw [this, Nat.mod_eq_of_lt hm]

/-- Two bytes of which the first is one more and the second sixteen less have the same effect in any state. -/
theorem elfStep_swap (h a b a' b' : Nat) (A B A' B' : Byte) (hA : A.toNat = a) (hB : B.toNat = b) (hA' : A'.toNat = a') (hB' : B'.toNat = b')
    (ha : a % 16 ≠ 15) (h1 : a' = a + 1) (h2 : b = b' + 16) : elfStep (elfStep h A) B = elfStep (elfStep h A') B' := by
  have e : elfStep h A' = elfStep h A + 1 := by
    simp only [elfStep, hA, hA', h1]
    generalize ht : (16 * h + a) % 2 ^ 32 = t
    have ht' : (16 * h + (a + 1)) % 2 ^ 32 = t + 1 := by omega
    rw [ht']
    have hn : t % 16 ≠ 15 := by omega
    have d : (t + 1) / 2 ^ 28 = t / 2 ^ 28 := by omega
    have m1 : t % 2 ^ 28 = 16 * (t % 2 ^ 28 / 16) + t % 16 := by omega
    have m2 : (t + 1) % 2 ^ 28 = 16 * (t % 2 ^ 28 / 16) + (t % 16 + 1) := by omega
    rw [d, m1, m2, Nat.mul_comm (t / 2 ^ 28) 16, xor_nibble _ _ _ (by omega), xor_nibble _ _ _ (by omega)]
    omega
  rw [e]
  generalize elfStep h A = g
  simp only [elfStep, hB, hB', h2]
  have : 16 * g + (b' + 16) = 16 * (g + 1) + b' := by omega
  rw [this]

theorem elfHash_append (s t : List Byte) : elfHash (s ++ t) = t.foldl elfStep (elfHash s) := by
  simp [elfHash]

theorem elfHash_swap (pre suf : List Byte) (A B A' B' : Byte) (ha : A.toNat % 16 ≠ 15) (h1 : A'.toNat = A.toNat + 1)
    (h2 : B.toNat = B'.toNat + 16) : elfHash (pre ++ A :: B :: suf) = elfHash (pre ++ A' :: B' :: suf) := by
  rw [elfHash_append, elfHash_append]
  simp only [List.foldl_cons]
  rw [elfStep_swap _ _ _ _ _ A B A' B' rfl rfl rfl rfl ha h1 h2]

theorem elfHash_lt (s : List Byte) : elfHash s < 2 ^ 28 := by
  unfold elfHash
  rcases List.eq_nil_or_concat s with rfl | ⟨t, c, rfl⟩
  · simp
  · rw [List.concat_eq_append, List.foldl_append]; exact elfStep_lt _ _

/-! ### Many texts with the same hash -/

/-- All texts of `n` blocks, each block `Aa` or `BQ`. -/
def blocks : Nat → List (List Byte)
  | 0 => [[]]
  | n + 1 => (blocks n).map (fun s => 65 :: 97 :: s) ++ (blocks n).map (fun s => 66 :: 81 :: s)

theorem blocks_length : ∀ n, (blocks n).length = 2 ^ n
  | 0 => rfl
  | n + 1 => by simp only [blocks, List.length_append, List.length_map, blocks_length n]; omega

theorem blocks_size : ∀ n, ∀ s ∈ blocks n, s.length = 2 * n ∧ ∀ c ∈ s, c ∈ [65, 97, 66, (81 : Byte)]
  | 0, s, h => by simp only [blocks, List.mem_singleton] at h; subst h; simp
  | n + 1, s, h => by
    simp only [blocks, List.mem_append, List.mem_map] at h
    rcases h with ⟨t, ht, rfl⟩ | ⟨t, ht, rfl⟩
    · obtain ⟨h1, h2⟩ := blocks_size n t ht
      refine ⟨by simp only [List.length_cons]; omega, fun c hc => ?_⟩
      rcases List.mem_cons.1 hc with rfl | hc
      · simp
      · rcases List.mem_cons.1 hc with rfl | hc
        · simp
        · exact h2 c hc
    · obtain ⟨h1, h2⟩ := blocks_size n t ht
      refine ⟨by simp only [List.length_cons]; omega, fun c hc => ?_⟩
      rcases List.mem_cons.1 hc with rfl | hc
      · simp
      · rcases List.mem_cons.1 hc with rfl | hc
        · simp
        · exact h2 c hc

theorem blocks_nodup : ∀ n, (blocks n).Nodup
  | 0 => by simp [blocks]
  | n + 1 => by
    have ih := blocks_nodup n
    rw [blocks, List.nodup_append]
    refine ⟨ih.map fun a b h => ?_, ih.map fun a b h => ?_, ?_⟩
    · exact (List.cons.inj (List.cons.inj h).2).2
    · exact (List.cons.inj (List.cons.inj h).2).2
    · intro a ha b hb hab
      obtain ⟨x, _, rfl⟩ := List.mem_map.1 ha
      obtain ⟨y, _, rfl⟩ := List.mem_map.1 hb
      have := (List.cons.inj hab).1
      exact absurd this (by decide)

theorem blocks_state : ∀ (n h : Nat), ∀ s ∈ blocks n, ∀ t ∈ blocks n, s.foldl elfStep h = t.foldl elfStep h
  | 0, h, s, hs, t, ht => by
    simp only [blocks, List.mem_singleton] at hs ht
    rw [hs, ht]
  | n + 1, h, s, hs, t, ht => by
    have key : ∀ s ∈ blocks (n + 1), ∃ s' ∈ blocks n, s.foldl elfStep h = s'.foldl elfStep (elfStep (elfStep h 65) 97) := by
      intro s hs
      simp only [blocks, List.mem_append, List.mem_map] at hs
      rcases hs with ⟨u, hu, rfl⟩ | ⟨u, hu, rfl⟩
      · exact ⟨u, hu, rfl⟩
      · refine ⟨u, hu, ?_⟩
        simp only [List.foldl_cons]
        rw [elfStep_swap h 65 97 66 81 65 97 66 81 rfl rfl rfl rfl (by decide) (by decide) (by decide)]
    obtain ⟨s', hs', e1⟩ := key s hs
    obtain ⟨t', ht', e2⟩ := key t ht
    rw [e1, e2]
    exact blocks_state n _ s' hs' t' ht'

theorem blocks_hash (n : Nat) (pre suf : List Byte) : ∀ s ∈ blocks n, ∀ t ∈ blocks n,
    elfHash (pre ++ s ++ suf) = elfHash (pre ++ t ++ suf) := by
  intro s hs t ht
  rw [elfHash_append, elfHash_append, elfHash_append, elfHash_append, blocks_state n _ s hs t ht]

/-! ### Seven letters -/

theorem elfStep_small {h : Nat} {c : Byte} (hs : 16 * h + c.toNat < 2 ^ 28) : elfStep h c = 16 * h + c.toNat := by
  simp only [elfStep]
  rw [Nat.mod_eq_of_lt (by omega : 16 * h + c.toNat < 2 ^ 32), Nat.mod_eq_of_lt hs, Nat.div_eq_of_lt hs, Nat.zero_mul, Nat.xor_zero]

/-- What the seventh of seven such letters does. -/
def last (r : Nat) : Nat := r ^^^ (if r < 0x4444440 then 0x50 else 0x40)

theorem seven {c : Fin 7 → Byte} (n : Fin 7 → Nat) (hn : ∀ i, n i < 16) (hc : ∀ i, (c i).toNat = 64 + n i) :
    elfHash [c 0, c 1, c 2, c 3, c 4, c 5, c 6] =
      last ((16 * (16 * (16 * (16 * (16 * (16 * n 0 + n 1) + n 2) + n 3) + n 4) + n 5) + n 6 + 0x44444440) % 2 ^ 28) := by
  have h0 := hn 0
  have h1 := hn 1
  have h2 := hn 2
  have h3 := hn 3
  have h4 := hn 4
  have h5 := hn 5
  have h6 := hn 6
  have c0 := hc 0
  have c1 := hc 1
  have c2 := hc 2
  have c3 := hc 3
  have c4 := hc 4
  have c5 := hc 5
  have c6 := hc 6
  generalize n 0 = n0 at *
  generalize n 1 = n1 at *
  generalize n 2 = n2 at *
  generalize n 3 = n3 at *
  generalize n 4 = n4 at *
  generalize n 5 = n5 at *
  generalize n 6 = n6 at *
  simp only [elfHash, List.foldl_cons, List.foldl_nil]
  rw [elfStep_small (h := 0) (by omega), elfStep_small (c := c 1) (by omega), elfStep_small (c := c 2) (by omega),
    elfStep_small (c := c 3) (by omega), elfStep_small (c := c 4) (by omega), elfStep_small (c := c 5) (by omega)]
  rw [c0, c1, c2, c3, c4, c5]
  simp only [elfStep, c6]
  generalize hN : 16 * (16 * (16 * (16 * (16 * (16 * n0 + n1) + n2) + n3) + n4) + n5) + n6 = N
  have hx : 16 * (16 * (16 * (16 * (16 * (16 * (16 * 0 + (64 + n0)) + (64 + n1)) + (64 + n2)) + (64 + n3)) + (64 + n4)) +
      (64 + n5)) + (64 + n6) = N + 0x44444440 := by omega
  have hN2 : N < 2 ^ 28 := by omega
  rw [hx, Nat.mod_eq_of_lt (by omega : N + 0x44444440 < 2 ^ 32)]
  unfold last
  by_cases h : (N + 0x44444440) % 2 ^ 28 < 0x4444440
  · rw [if_pos h, show (N + 0x44444440) / 2 ^ 28 = 5 from by omega]
  · rw [if_neg h, show (N + 0x44444440) / 2 ^ 28 = 4 from by omega]

theorem last_lt {r : Nat} (h : r < 2 ^ 28) : last r < 2 ^ 28 := by
  unfold last
  exact Nat.xor_lt_two_pow h (by split <;> decide)

theorem x10 : ∀ b : Fin 256, (b.val ^^^ 0x40) ^^^ 0x40 = b.val ∧ (b.val ^^^ 0x50) ^^^ 0x50 = b.val ∧
    (0x40 ≤ b.val ^^^ 0x40 ↔ b.val < 0x40 ∨ 0x80 ≤ b.val) ∧ (b.val ^^^ 0x50 < 0x40 ↔ 0x40 ≤ b.val ∧ b.val < 0x80) := by decide +kernel

theorem last_inj {r r' : Nat} (h : last r = last r') : r = r' := by
  unfold last at h
  have key : ∀ r : Nat, (r ^^^ (if r < 0x4444440 then 0x50 else 0x40)) / 256 = r / 256 ∧
      (r ^^^ (if r < 0x4444440 then 0x50 else 0x40)) % 256 = r % 256 ^^^ (if r < 0x4444440 then 0x50 else 0x40) := by
    intro r
    exact xor_byte r _ (by split <;> decide)
  obtain ⟨d, m⟩ := key r
  obtain ⟨d', m'⟩ := key r'
  rw [h] at d m
  rw [d'] at d
  rw [m'] at m
  have hb := x10 ⟨r % 256, Nat.mod_lt _ (by decide)⟩
  have hb' := x10 ⟨r' % 256, Nat.mod_lt _ (by decide)⟩
  simp only at hb hb'
  by_cases c : r < 0x4444440 <;> by_cases c' : r' < 0x4444440
  · rw [if_pos c, if_pos c'] at m
    have : r' % 256 = r % 256 := by rw [← hb'.2.1, m, hb.2.1]
    omega
  · rw [if_pos c, if_neg c'] at m
    have e : (r' % 256 ^^^ 0x40) ^^^ 0x50 = r % 256 := by rw [m, hb.2.1]
    have hlt : r' % 256 ^^^ 0x40 < 256 := Nat.xor_lt_two_pow (n := 8) (Nat.mod_lt _ (by decide)) (by decide)
    have h3 := (x10 ⟨r' % 256 ^^^ 0x40, hlt⟩)
    simp only at h3
    rw [e, hb'.1] at h3
    omega
  · rw [if_neg c, if_pos c'] at m
    have e : (r % 256 ^^^ 0x40) ^^^ 0x50 = r' % 256 := by rw [← m, hb'.2.1]
    have hlt : r % 256 ^^^ 0x40 < 256 := Nat.xor_lt_two_pow (n := 8) (Nat.mod_lt _ (by decide)) (by decide)
    have h3 := (x10 ⟨r % 256 ^^^ 0x40, hlt⟩)
    simp only at h3
    rw [e, hb.1] at h3
    omega
  · rw [if_neg c, if_neg c'] at m
    have : r' % 256 = r % 256 := by rw [← hb'.1, m, hb.1]
    omega

theorem last_surj {t : Nat} (h : t < 2 ^ 28) : ∃ r < 2 ^ 28, last r = t := by
  have hx := x10 ⟨t % 256, Nat.mod_lt _ (by decide)⟩
  simp only at hx
  have go : ∀ m, m < 256 → ∃ r, r = t ^^^ m ∧ r < 2 ^ 28 ∧ r ^^^ m = t ∧ r / 256 = t / 256 ∧ r % 256 = t % 256 ^^^ m := by
    intro m hm
    exact ⟨_, rfl, Nat.xor_lt_two_pow h (by omega), by rw [Nat.xor_assoc, Nat.xor_self, Nat.xor_zero], xor_byte t m hm⟩
  by_cases c : t / 256 > 0x44444 ∨ (t / 256 = 0x44444 ∧ (t % 256 < 0x40 ∨ 0x80 ≤ t % 256))
  · obtain ⟨r, _, h2, h3, h4, h5⟩ := go 0x40 (by decide)
    refine ⟨r, h2, ?_⟩
    unfold last
    rw [if_neg (by omega)]
    exact h3
  · obtain ⟨r, _, h2, h3, h4, h5⟩ := go 0x50 (by decide)
    refine ⟨r, h2, ?_⟩
    unfold last
    rw [if_pos (by omega)]
    exact h3

end Ulz.Flood

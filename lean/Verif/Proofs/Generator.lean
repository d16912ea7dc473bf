import Verif.Spec.Balance
set_option linter.unusedVariables false
namespace Ulz.Tlist
open Spec

/-- `1 + a + ... + a^(n-1)` for the multiplier `a` of the generator. -/
def geo : Nat → Nat
  | 0 => 0
  | n + 1 => 1103515245 * geo n + 1

theorem state_succ (k : Nat) : state (k + 1) = state k * 1103515245 + 12345 := rfl

theorem state_add (k : Nat) : ∀ n, state (k + n) = state k + geo n * (1103515244 * state k + 12345)
  | 0 => by simp [geo]
  | n + 1 => by
    have ih := state_add k n
    rw [← Nat.add_assoc, state_succ, ih, show geo (n + 1) = 1103515245 * geo n + 1 from rfl,
      Nat.add_mul (1103515245 * geo n) 1, Nat.mul_assoc 1103515245, Nat.one_mul]
    have : ∀ s M : Nat, (s + M) * 1103515245 + 12345 = s + (1103515245 * M + (1103515244 * s + 12345)) := by intros; omega
    exact this _ _

theorem geo_add (m : Nat) : ∀ n, geo (m + n) = 1103515245 ^ n * geo m + geo n
  | 0 => by simp [geo]
  | n + 1 => by
    rw [← Nat.add_assoc]
    simp only [geo, geo_add m n, Nat.pow_succ]
    rw [Nat.mul_add, ← Nat.mul_assoc, Nat.mul_comm 1103515245 (1103515245 ^ n)]
    omega

theorem pow_mod4 (m : Nat) : 1103515245 ^ m % 4 = 1 := by rw [Nat.pow_mod]; simp

theorem geo_mod2 : ∀ n, geo n % 2 = n % 2
  | 0 => rfl
  | n + 1 => by have := geo_mod2 n; simp only [geo]; omega

theorem dvd_odd {k a b : Nat} (hb : b % 2 = 1) : 2^k ∣ a * b ↔ 2^k ∣ a := by
  have : Nat.Coprime (2^k) b := by
    apply Nat.Coprime.pow_left
    rw [Nat.coprime_iff_gcd_eq_one, Nat.gcd_rec, hb]
    decide
  exact ⟨fun h => this.dvd_of_dvd_mul_right h, fun h => Nat.dvd_trans h (Nat.dvd_mul_right _ _)⟩

theorem geo_dvd : ∀ k n, 2^k ∣ geo n ↔ 2^k ∣ n
  | 0, n => by simp
  | k + 1, n => by
    by_cases h : n % 2 = 1
    · have h2 := geo_mod2 n
      constructor
      · intro hd
        have := Nat.dvd_trans (⟨2^k, by rw [Nat.pow_succ, Nat.mul_comm]⟩ : 2 ∣ 2^(k+1)) hd
        omega
      · intro hd
        have := Nat.dvd_trans (⟨2^k, by rw [Nat.pow_succ, Nat.mul_comm]⟩ : 2 ∣ 2^(k+1)) hd
        omega
    · obtain ⟨m, rfl⟩ : ∃ m, n = m + m := ⟨n / 2, by omega⟩
      obtain ⟨q, hq⟩ : ∃ q, 1103515245 ^ m + 1 = 2 * (2 * q + 1) := by
        have := pow_mod4 m
        exact ⟨1103515245 ^ m / 4, by omega⟩
      have e : geo (m + m) = 2 * (geo m * (2 * q + 1)) := by
        rw [geo_add, show 1103515245 ^ m * geo m + geo m = (1103515245 ^ m + 1) * geo m by rw [Nat.add_mul, Nat.one_mul], hq,
          Nat.mul_assoc, Nat.mul_comm (2 * q + 1)]
      rw [e, show m + m = 2 * m by omega, Nat.pow_succ, Nat.mul_comm (2^k) 2, Nat.mul_dvd_mul_iff_left (by omega),
        Nat.mul_dvd_mul_iff_left (by omega), dvd_odd (by omega), geo_dvd k m]

theorem draw_eq (i n : Nat) : draw (i + n) = draw i ↔ 2^31 ∣ n := by
  have h := state_add (i + 1) n
  have e : i + n + 1 = i + 1 + n := by omega
  unfold draw
  rw [e, h]
  have ho : (1103515244 * state (i + 1) + 12345) % 2 = 1 := by omega
  rw [← geo_dvd 31 n, ← dvd_odd (k := 31) (a := geo n) ho]
  have : ∀ s M : Nat, (s + M) % 2^31 = s % 2^31 ↔ 2^31 ∣ M := by intros; omega
  exact this _ _

end Ulz.Tlist

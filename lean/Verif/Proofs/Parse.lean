import Verif.Proofs.Numbers
set_option linter.unusedSimpArgs false
set_option linter.unusedVariables false
namespace Ulz.Numbers
open Spec

theorem digit_toInt {d : Nat} (h : d < 10) : (BitVec.ofNat 8 (48 + d)).toInt - 48 = d := by
  have : ∀ d : Fin 10, (BitVec.ofNat 8 (48 + d.val)).toInt - 48 = d.val := by decide
  exact this ⟨d, h⟩

theorem digit_ne_minus {d : Nat} (h : d < 10) : BitVec.ofNat 8 (48 + d) ≠ ch '-' := by
  have : ∀ d : Fin 10, BitVec.ofNat 8 (48 + d.val) ≠ ch '-' := by decide
  exact this ⟨d, h⟩

theorem i64_ok {x : Int} (h1 : -9223372036854775808 ≤ x) (h2 : x < 9223372036854775808) : i64 x = .ok x := by simp [i64]; omega

theorem pow10_le {m : Nat} (h : m ≤ 17) : (10 : Int)^m ≤ 100000000000000000 := by
  have := Nat.pow_le_pow_right (n := 10) (by omega) h
  have h2 : (10:Nat)^17 = 100000000000000000 := by decide
  rw [h2] at this
  have h3 : ((10 ^ m : Nat) : Int) ≤ ((100000000000000000 : Nat) : Int) := Int.ofNat_le.2 this
  rw [Int.natCast_pow] at h3
  exact h3

theorem rd_digit (A rest : List Byte) (ds : List Nat) (d : Nat) :
    rd (A ++ (ds ++ [d]).map (fun d => BitVec.ofNat 8 (48 + d)) ++ rest) (A.length + ds.length)
      = .ok (BitVec.ofNat 8 (48 + d)) := by
  rw [List.append_assoc, rd_append_right (by omega), List.map_append, List.append_assoc,
    rd_append_right (by simp)]
  simp

theorem ofDigits_lt (ds : List Nat) (h : ∀ d ∈ ds, d < 10) : ofDigits 10 ds < 10 ^ ds.length := by
  generalize hn : ds.length = n
  induction n generalizing ds with
  | zero =>
    have : ds = [] := List.eq_nil_of_length_eq_zero hn
    subst this; simp [ofDigits]
  | succ n ih =>
    have hne : ds ≠ [] := by intro h; subst h; simp at hn
    obtain ⟨ds', d, rfl⟩ : ∃ ds' d, ds = ds' ++ [d] :=
      ⟨ds.dropLast, ds.getLast hne, (List.dropLast_concat_getLast hne).symm⟩
    rw [ofDigits_append]
    have := ih ds' (fun d hd => h d (by simp [hd])) (by simpa using hn)
    have := h d (by simp)
    simp only [Nat.pow_succ]
    omega

theorem parse64_ok (A rest : List Byte) : ∀ (n : Nat) (ds : List Nat) (m : Nat) (acc : Int),
    ds.length = n → (∀ d ∈ ds, d < 10) → m + n ≤ 18 → 0 ≤ acc → acc < 10^m →
    parse64 (A ++ ds.map (fun d => BitVec.ofNat 8 (48 + d)) ++ rest) A.length n (10^m) acc =
      .ok (acc + ofDigits 10 ds * 10^m)
  | 0, ds, m, acc, hl, hd, hm, h0, h1 => by
    have : ds = [] := List.eq_nil_of_length_eq_zero hl
    subst this
    simp [parse64, ofDigits]
  | n + 1, ds, m, acc, hl, hd, hm, h0, h1 => by
    have hne : ds ≠ [] := by intro h; subst h; simp at hl
    obtain ⟨ds', d, rfl⟩ : ∃ ds' d, ds = ds' ++ [d] :=
      ⟨ds.dropLast, ds.getLast hne, (List.dropLast_concat_getLast hne).symm⟩
    have hl' : ds'.length = n := by simpa using hl
    have hdd : d < 10 := hd d (by simp)
    simp only [parse64]
    have hr := rd_digit A rest ds' d
    rw [hl'] at hr
    rw [hr]
    simp only [ok_bind]
    rw [digit_toInt hdd]
    have hp := pow10_le (show m ≤ 17 by omega)
    have hp0 : (0:Int) < 10^m := Int.pow_pos (by omega)
    have hx : (d : Int) * 10^m ≤ 9 * 10^m := Int.mul_le_mul_of_nonneg_right (by omega) (by omega)
    have hx0 : 0 ≤ (d : Int) * 10^m := Int.mul_nonneg (by omega) (by omega)
    rw [i64_ok (by omega) (by omega)]
    simp only [ok_bind]
    rw [i64_ok (by omega) (by omega)]
    simp only [ok_bind]
    rw [i64_ok (by omega) (by omega)]
    simp only [ok_bind]
    have hs : (10:Int)^m * 10 = 10^(m+1) := by rw [Int.pow_succ]
    rw [hs]
    have ih := parse64_ok A (BitVec.ofNat 8 (48 + d) :: rest) n ds' (m + 1) (acc + d * 10^m) hl'
      (fun d hd' => hd d (by simp [hd'])) (by omega) (by omega) (by rw [← hs]; omega)
    have e : A ++ List.map (fun d => BitVec.ofNat 8 (48 + d)) (ds' ++ [d]) ++ rest =
      A ++ List.map (fun d => BitVec.ofNat 8 (48 + d)) ds' ++ BitVec.ofNat 8 (48 + d) :: rest := by simp
    rw [e, ih, ofDigits_append]
    congr 1
    rw [← hs]
    push_cast
    rw [Int.add_mul, ← Int.mul_assoc, Int.mul_right_comm]
    omega

theorem parse64_overflow (A rest : List Byte) : ∀ (n : Nat) (ds : List Nat) (m : Nat) (acc : Int),
    ds.length = n → (∀ d ∈ ds, d < 10) → m ≤ 18 → 19 ≤ m + n → 0 ≤ acc → acc < 10^m →
    parse64 (A ++ ds.map (fun d => BitVec.ofNat 8 (48 + d)) ++ rest) A.length n (10^m) acc =
      .error .overflow
  | 0, ds, m, acc, hl, hd, hm, hm', h0, h1 => by omega
  | n + 1, ds, m, acc, hl, hd, hm, hm', h0, h1 => by
    have hne : ds ≠ [] := by intro h; subst h; simp at hl
    obtain ⟨ds', d, rfl⟩ : ∃ ds' d, ds = ds' ++ [d] :=
      ⟨ds.dropLast, ds.getLast hne, (List.dropLast_concat_getLast hne).symm⟩
    have hl' : ds'.length = n := by simpa using hl
    have hdd : d < 10 := hd d (by simp)
    simp only [parse64]
    have hr := rd_digit A rest ds' d
    rw [hl'] at hr
    rw [hr]
    simp only [ok_bind]
    rw [digit_toInt hdd]
    have hp0 : (0:Int) < 10^m := Int.pow_pos (by omega)
    have hx : (d : Int) * 10^m ≤ 9 * 10^m := Int.mul_le_mul_of_nonneg_right (by omega) (by omega)
    have hx0 : 0 ≤ (d : Int) * 10^m := Int.mul_nonneg (by omega) (by omega)
    have hs : (10:Int)^m * 10 = 10^(m+1) := by rw [Int.pow_succ]
    by_cases h18 : m = 18
    · subst h18
      have h18' : (10:Int)^18 = 1000000000000000000 := by decide
      rw [h18'] at *
      rw [i64_ok (by omega) (by omega)]
      simp only [ok_bind]
      by_cases hov : acc + d * 1000000000000000000 < 9223372036854775808
      · rw [i64_ok (by omega) hov]
        simp only [ok_bind]
        simp [i64]
      · have : i64 (acc + d * 1000000000000000000) = .error .overflow := by
          unfold i64; rw [if_neg (by omega)]
        rw [this]; rfl
    · have hp := pow10_le (show m ≤ 17 by omega)
      rw [i64_ok (by omega) (by omega)]
      simp only [ok_bind]
      rw [i64_ok (by omega) (by omega)]
      simp only [ok_bind]
      rw [i64_ok (by omega) (by omega)]
      simp only [ok_bind]
      rw [hs]
      have ih := parse64_overflow A (BitVec.ofNat 8 (48 + d) :: rest) n ds' (m + 1) (acc + d * 10^m) hl'
        (fun d hd' => hd d (by simp [hd'])) (by omega) (by omega) (by omega) (by rw [← hs]; omega)
      have e : A ++ List.map (fun d => BitVec.ofNat 8 (48 + d)) (ds' ++ [d]) ++ rest =
        A ++ List.map (fun d => BitVec.ofNat 8 (48 + d)) ds' ++ BitVec.ofNat 8 (48 + d) :: rest := by simp
      rw [e, ih]

theorem parse32_ok (A rest : List Byte) : ∀ (n : Nat) (ds : List Nat) (m : Nat) (V : Int),
    ds.length = n → (∀ d ∈ ds, d < 10) → m + n ≤ 18 →
    parse32 (A ++ ds.map (fun d => BitVec.ofNat 8 (48 + d)) ++ rest) A.length n (10^m) (V.bmod (2^32)) =
      .ok ((V + ofDigits 10 ds * 10^m).bmod (2^32))
  | 0, ds, m, acc, hl, hd, hm => by
    have : ds = [] := List.eq_nil_of_length_eq_zero hl
    subst this
    simp [parse32, ofDigits]
  | n + 1, ds, m, V, hl, hd, hm => by
    have hne : ds ≠ [] := by intro h; subst h; simp at hl
    obtain ⟨ds', d, rfl⟩ : ∃ ds' d, ds = ds' ++ [d] :=
      ⟨ds.dropLast, ds.getLast hne, (List.dropLast_concat_getLast hne).symm⟩
    have hl' : ds'.length = n := by simpa using hl
    have hdd : d < 10 := hd d (by simp)
    simp only [parse32]
    have hr := rd_digit A rest ds' d
    rw [hl'] at hr
    rw [hr]
    simp only [ok_bind]
    rw [digit_toInt hdd]
    have hp := pow10_le (show m ≤ 17 by omega)
    have hp0 : (0:Int) < 10^m := Int.pow_pos (by omega)
    have hx : (d : Int) * 10^m ≤ 9 * 10^m := Int.mul_le_mul_of_nonneg_right (by omega) (by omega)
    have hx0 : 0 ≤ (d : Int) * 10^m := Int.mul_nonneg (by omega) (by omega)
    have hb1 := Int.le_bmod (x := V) (m := 2^32) (by omega)
    have hb2 := Int.bmod_lt (x := V) (m := 2^32) (by omega)
    rw [i64_ok (by omega) (by omega)]
    simp only [ok_bind]
    rw [i64_ok (by omega) (by omega)]
    simp only [ok_bind]
    rw [i64_ok (by omega) (by omega)]
    simp only [ok_bind]
    have hs : (10:Int)^m * 10 = 10^(m+1) := by rw [Int.pow_succ]
    rw [hs, Int.bmod_add_bmod]
    have ih := parse32_ok A (BitVec.ofNat 8 (48 + d) :: rest) n ds' (m + 1) (V + d * 10^m) hl'
      (fun d hd' => hd d (by simp [hd'])) (by omega)
    have e : A ++ List.map (fun d => BitVec.ofNat 8 (48 + d)) (ds' ++ [d]) ++ rest =
      A ++ List.map (fun d => BitVec.ofNat 8 (48 + d)) ds' ++ BitVec.ofNat 8 (48 + d) :: rest := by simp
    rw [e, ih, ofDigits_append]
    congr 2
    rw [← hs]
    push_cast
    rw [Int.add_mul, ← Int.mul_assoc, Int.mul_right_comm]
    omega

theorem bmod_small {x : Int} (h1 : -2^31 ≤ x) (h2 : x < 2^31) : x.bmod (2^32) = x := by
  apply Int.bmod_eq_of_le <;> omega

end Ulz.Numbers

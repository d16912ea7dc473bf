import Verif.Proofs.Parse
import Verif.Proofs.Ipv4
import Verif.Spec.Parsetext
/-! Proofs about reading numbers from arbitrary text. -/
namespace Ulz.Parsetext
open Spec Numbers

theorem value_append (g : List Byte) (c : Byte) : value (g ++ [c]) = value g * 10 + (c.toInt - 48) := by
  simp [value]

theorem value_cons (c : Byte) (g : List Byte) : value (c :: g) = (c.toInt - 48) * 10 ^ g.length + value g := by
  have h : ∀ (g : List Byte) (a : Int), g.foldl (fun a c => a * 10 + (c.toInt - 48)) a = a * 10 ^ g.length + value g := by
    intro g
    induction g with
    | nil => simp [value]
    | cons d g ih =>
      intro a
      have hd : value (d :: g) = (0 * 10 + (d.toInt - 48)) * 10 ^ g.length + value g := ih _
      rw [List.foldl_cons, ih, hd, List.length_cons, Int.pow_succ]
      rw [Int.add_mul, Int.zero_mul, Int.zero_add, Int.mul_assoc, Int.mul_comm 10, Int.add_assoc]
  show List.foldl _ _ _ = _
  rw [List.foldl_cons, h]
  simp

theorem char_bounds (c : Byte) : -176 ≤ c.toInt - 48 ∧ c.toInt - 48 ≤ 79 := by
  have h1 := BitVec.le_toInt c
  have h2 := BitVec.toInt_lt (x := c)
  omega

theorem snoc {α : Type} {l : List α} {n : Nat} (h : l.length = n + 1) : ∃ l' x, l = l' ++ [x] ∧ l'.length = n := by
  have hne : l ≠ [] := by intro e; subst e; simp at h
  exact ⟨l.dropLast, l.getLast hne, (List.dropLast_concat_getLast hne).symm, by simp [h]⟩

theorem rd_mid (A g rest : List Byte) (c : Byte) (i : Nat) (hi : i = A.length + g.length) :
    rd (A ++ (g ++ [c]) ++ rest) i = .ok c := by
  subst hi
  rw [List.append_assoc, rd_append_right (by omega), List.append_assoc, rd_append_right (by simp)]
  simp

theorem step64 (A rest : List Byte) (lo j : Nat) (hA : A.length = lo + j) : ∀ (n : Nat) (g : List Byte) (m : Nat) (acc : Int),
    g.length = n → m + n ≤ 17 → -20 * 10^m ≤ acc → acc ≤ 9 * 10^m →
    parse64 (A ++ g ++ rest) lo (j + n) (10^m) acc = parse64 (A ++ g ++ rest) lo j (10^(m+n)) (acc + value g * 10^m) ∧
      -20 * 10^(m+n) ≤ acc + value g * 10^m ∧ acc + value g * 10^m ≤ 9 * 10^(m+n)
  | 0, g, m, acc, hl, hm, h0, h1 => by
    have : g = [] := List.eq_nil_of_length_eq_zero hl
    subst this
    simp [value]
    omega
  | n + 1, g, m, acc, hl, hm, h0, h1 => by
    obtain ⟨g, c, rfl, hl'⟩ := snoc hl
    have hp := pow10_le (show m ≤ 17 by omega)
    have hp16 : (10:Int)^m * 10 ≤ 100000000000000000 := by
      rw [← Int.pow_succ]; exact pow10_le (by omega)
    have hp0 : (0:Int) < 10^m := Int.pow_pos (by omega)
    have hc := char_bounds c
    have hx1 : -176 * (10:Int)^m ≤ (c.toInt - 48) * 10^m := Int.mul_le_mul_of_nonneg_right hc.1 (by omega)
    have hx2 : (c.toInt - 48) * (10:Int)^m ≤ 79 * 10^m := Int.mul_le_mul_of_nonneg_right hc.2 (by omega)
    have hs : (10:Int)^(m+1) = 10^m * 10 := by rw [Int.pow_succ]
    have ih := step64 A (c :: rest) lo j hA n g (m + 1) (acc + (c.toInt - 48) * 10^m) hl' (by omega) (by omega) (by omega)
    have e : A ++ (g ++ [c]) ++ rest = A ++ g ++ c :: rest := by simp
    have ev : acc + value (g ++ [c]) * 10^m = acc + (c.toInt - 48) * 10^m + value g * 10^(m+1) := by
      rw [value_append, hs, Int.add_mul, Int.mul_assoc, Int.mul_comm 10]; omega
    rw [show m + (n + 1) = m + 1 + n by omega, ev]
    refine ⟨?_, ih.2⟩
    rw [show j + (n + 1) = (j + n) + 1 by omega, parse64, rd_mid A g rest c _ (by omega)]
    simp only [ok_bind]
    rw [i64_ok (by omega) (by omega)]
    simp only [ok_bind]
    rw [i64_ok (by omega) (by omega)]
    simp only [ok_bind]
    rw [i64_ok (by omega) (by omega)]
    simp only [ok_bind]
    rw [e, ← hs, ih.1]

theorem step32 (A rest : List Byte) (lo j : Nat) (hA : A.length = lo + j) : ∀ (n : Nat) (g : List Byte) (m : Nat) (V : Int),
    g.length = n → m + n ≤ 17 →
    parse32 (A ++ g ++ rest) lo (j + n) (10^m) (V.bmod (2^32)) =
      parse32 (A ++ g ++ rest) lo j (10^(m+n)) ((V + value g * 10^m).bmod (2^32))
  | 0, g, m, V, hl, hm => by
    have : g = [] := List.eq_nil_of_length_eq_zero hl
    subst this
    simp [value]
  | n + 1, g, m, V, hl, hm => by
    obtain ⟨g, c, rfl, hl'⟩ := snoc hl
    have hp16 : (10:Int)^m * 10 ≤ 100000000000000000 := by
      rw [← Int.pow_succ]; exact pow10_le (by omega)
    have hp0 : (0:Int) < 10^m := Int.pow_pos (by omega)
    have hc := char_bounds c
    have hx1 : -176 * (10:Int)^m ≤ (c.toInt - 48) * 10^m := Int.mul_le_mul_of_nonneg_right hc.1 (by omega)
    have hx2 : (c.toInt - 48) * (10:Int)^m ≤ 79 * 10^m := Int.mul_le_mul_of_nonneg_right hc.2 (by omega)
    have hb1 := Int.le_bmod (x := V) (m := 2^32) (by omega)
    have hb2 := Int.bmod_lt (x := V) (m := 2^32) (by omega)
    have hs : (10:Int)^(m+1) = 10^m * 10 := by rw [Int.pow_succ]
    have ih := step32 A (c :: rest) lo j hA n g (m + 1) (V + (c.toInt - 48) * 10^m) hl' (by omega)
    have e : A ++ (g ++ [c]) ++ rest = A ++ g ++ c :: rest := by simp
    have ev : V + value (g ++ [c]) * 10^m = V + (c.toInt - 48) * 10^m + value g * 10^(m+1) := by
      rw [value_append, hs, Int.add_mul, Int.mul_assoc, Int.mul_comm 10]; omega
    rw [show m + (n + 1) = m + 1 + n by omega, ev]
    rw [show j + (n + 1) = (j + n) + 1 by omega, parse32, rd_mid A g rest c _ (by omega)]
    simp only [ok_bind]
    rw [i64_ok (by omega) (by omega)]
    simp only [ok_bind]
    rw [i64_ok (by omega) (by omega)]
    simp only [ok_bind]
    rw [i64_ok (by omega) (by omega)]
    simp only [ok_bind]
    rw [Int.bmod_add_bmod, e, ← hs, ih]

theorem i64_cases (x : Int) : i64 x = .ok x ∨ i64 x = .error .overflow := by
  unfold i64; split
  · exact .inl rfl
  · exact .inr rfl

theorem pow_big (m : Nat) (h : 18 ≤ m) : i64 ((10:Int)^m * 10) = .error .overflow := by
  have h1 : (10:Int)^18 ≤ 10^m := by
    have := Nat.pow_le_pow_right (n := 10) (by omega) h
    exact_mod_cast this
  unfold i64
  rw [if_neg (by have : (10:Int)^18 = 1000000000000000000 := by decide
                 omega)]

theorem over64 (str : List Byte) (lo : Nat) : ∀ (n m : Nat) (acc : Int), lo + n ≤ str.length → 19 ≤ m + n → m ≤ 18 →
    parse64 str lo n (10^m) acc = .error .overflow
  | 0, m, acc, hl, h1, h2 => by omega
  | n + 1, m, acc, hl, h1, h2 => by
    rw [parse64, rd_ok (by omega)]
    simp only [ok_bind]
    rcases i64_cases ((str[lo + n].toInt - 48) * 10 ^ m) with hx | hx <;> rw [hx]
    · simp only [ok_bind]
      rcases i64_cases (acc + (str[lo + n].toInt - 48) * 10 ^ m) with hy | hy <;> rw [hy]
      · simp only [ok_bind]
        by_cases hm : m = 18
        · rw [pow_big m (by omega)]; rfl
        · rcases i64_cases ((10:Int)^m * 10) with hz | hz <;> rw [hz]
          · simp only [ok_bind]
            rw [← Int.pow_succ]
            exact over64 str lo n (m + 1) _ (by omega) (by omega) (by omega)
          · rfl
      · rfl
    · rfl

theorem over32 (str : List Byte) (lo : Nat) : ∀ (n m : Nat) (acc : Int), lo + n ≤ str.length → 19 ≤ m + n → m ≤ 18 →
    parse32 str lo n (10^m) acc = .error .overflow
  | 0, m, acc, hl, h1, h2 => by omega
  | n + 1, m, acc, hl, h1, h2 => by
    rw [parse32, rd_ok (by omega)]
    simp only [ok_bind]
    rcases i64_cases ((str[lo + n].toInt - 48) * 10 ^ m) with hx | hx <;> rw [hx]
    · simp only [ok_bind]
      rcases i64_cases (acc + (str[lo + n].toInt - 48) * 10 ^ m) with hy | hy <;> rw [hy]
      · simp only [ok_bind]
        by_cases hm : m = 18
        · rw [pow_big m (by omega)]; rfl
        · rcases i64_cases ((10:Int)^m * 10) with hz | hz <;> rw [hz]
          · simp only [ok_bind]
            rw [← Int.pow_succ]
            exact over32 str lo n (m + 1) _ (by omega) (by omega) (by omega)
          · rfl
      · rfl
    · rfl

/-- The loop of `strtoint64` on a text behind `A`. -/
theorem loop64 (A g rest : List Byte) :
    parse64 (A ++ g ++ rest) A.length g.length 1 0 =
      if 19 ≤ g.length ∨ g.length = 18 ∧ ((g.head?.map fun c => c.toInt - 48).getD 0 < -92 ∨ value g < -9223372036854775808) then .error .overflow
      else .ok (value g) := by
  by_cases h1 : 19 ≤ g.length
  · rw [if_pos (.inl h1)]
    exact over64 _ _ g.length 0 0 (by simp) (by omega) (by omega)
  · by_cases h2 : g.length = 18
    · match g, h2 with
      | c :: g, h2 =>
        have hl : g.length = 17 := by simpa using h2
        have h := step64 (A ++ [c]) rest A.length 1 (by simp) 17 g 0 0 hl (by omega) (by omega) (by omega)
        have e : A ++ (c :: g) ++ rest = (A ++ [c]) ++ g ++ rest := by simp
        have hv := value_cons c g
        rw [hl] at hv
        have h10 : (10:Int)^17 = 100000000000000000 := by decide
        have hz : (0:Int) + value g * 10^0 = value g := by simp
        have hb := h.2
        have hc := char_bounds c
        simp only [Nat.zero_add] at hb
        rw [hz, h10] at hb
        rw [h10] at hv
        have key : parse64 (A ++ (c :: g) ++ rest) A.length (c :: g).length 1 0 =
            if c.toInt - 48 < -92 ∨ value (c :: g) < -9223372036854775808 then .error .overflow else .ok (value (c :: g)) := by
          rw [e, List.length_cons, hl, show (1:Int) = 10^0 from rfl, show 17 + 1 = 1 + 17 from rfl, h.1]
          rw [hz, show 0 + 17 = 17 from rfl, h10, parse64, show ((A ++ [c]) ++ g ++ rest) = A ++ ([] ++ [c]) ++ (g ++ rest) by simp,
            rd_mid A [] (g ++ rest) c _ (by simp)]
          simp only [ok_bind]
          by_cases hlow : c.toInt - 48 < -92
          · rw [if_pos (.inl hlow)]
            unfold i64
            rw [if_neg (by omega)]; rfl
          · rw [i64_ok (by omega) (by omega)]
            simp only [ok_bind]
            by_cases hvl : value (c :: g) < -9223372036854775808
            · rw [if_pos (.inr hvl)]
              unfold i64
              rw [if_neg (by omega)]; rfl
            · rw [if_neg (by omega), i64_ok (by omega) (by omega)]
              simp only [ok_bind]
              rw [i64_ok (by omega) (by omega)]
              simp only [ok_bind, parse64, pure_eq_ok]
              congr 1; omega
        rw [key]
        by_cases hh : c.toInt - 48 < -92 ∨ value (c :: g) < -9223372036854775808
        · rw [if_pos hh, if_pos (.inr ⟨h2, hh⟩)]
        · rw [if_neg hh, if_neg (fun h => h.elim h1 (fun h => hh h.2))]
    · rw [if_neg (by omega)]
      have h := step64 A rest A.length 0 (by simp) g.length g 0 0 rfl (by omega) (by omega) (by omega)
      rw [show (1:Int) = 10^0 from rfl, ← Nat.zero_add g.length, h.1]
      simp [parse64]

/-- The loop of `strtoint` on a text behind `A`. -/
theorem loop32 (A g rest : List Byte) :
    parse32 (A ++ g ++ rest) A.length g.length 1 0 =
      if 19 ≤ g.length ∨ g.length = 18 ∧ (g.head?.map fun c => c.toInt - 48).getD 0 < -92 then .error .overflow
      else .ok ((value g).bmod (2^32)) := by
  have hz0 : Int.bmod 0 (2^32) = 0 := by decide
  by_cases h1 : 19 ≤ g.length
  · rw [if_pos (.inl h1)]
    exact over32 _ _ g.length 0 0 (by simp) (by omega) (by omega)
  · by_cases h2 : g.length = 18
    · match g, h2 with
      | c :: g, h2 =>
        have hl : g.length = 17 := by simpa using h2
        have h := step32 (A ++ [c]) rest A.length 1 (by simp) 17 g 0 0 hl (by omega)
        rw [hz0] at h
        have e : A ++ (c :: g) ++ rest = (A ++ [c]) ++ g ++ rest := by simp
        have hv := value_cons c g
        rw [hl] at hv
        have h10 : (10:Int)^17 = 100000000000000000 := by decide
        have hz : (0:Int) + value g * 10^0 = value g := by simp
        have hc := char_bounds c
        rw [h10] at hv
        have hb1 := Int.le_bmod (x := value g) (m := 2^32) (by omega)
        have hb2 := Int.bmod_lt (x := value g) (m := 2^32) (by omega)
        have key : parse32 (A ++ (c :: g) ++ rest) A.length (c :: g).length 1 0 =
            if c.toInt - 48 < -92 then .error .overflow else .ok ((value (c :: g)).bmod (2^32)) := by
          rw [e, List.length_cons, hl, show (1:Int) = 10^0 from rfl, show 17 + 1 = 1 + 17 from rfl, h]
          rw [hz, show 0 + 17 = 17 from rfl, h10, parse32, show ((A ++ [c]) ++ g ++ rest) = A ++ ([] ++ [c]) ++ (g ++ rest) by simp,
            rd_mid A [] (g ++ rest) c _ (by simp)]
          simp only [ok_bind]
          by_cases hlow : c.toInt - 48 < -92
          · rw [if_pos hlow]
            unfold i64
            rw [if_neg (by omega)]; rfl
          · rw [if_neg (by omega), i64_ok (by omega) (by omega)]
            simp only [ok_bind]
            rw [i64_ok (by omega) (by omega)]
            simp only [ok_bind]
            rw [i64_ok (by omega) (by omega)]
            simp only [ok_bind, parse32, pure_eq_ok]
            rw [Int.bmod_add_bmod, Int.add_comm, hv]
        rw [key]
        by_cases hh : c.toInt - 48 < -92
        · rw [if_pos hh, if_pos (.inr ⟨h2, hh⟩)]
        · rw [if_neg hh, if_neg (fun h => h.elim h1 (fun h => hh h.2))]
    · rw [if_neg (by omega)]
      have h := step32 A rest A.length 0 (by simp) g.length g 0 0 rfl (by omega)
      rw [hz0] at h
      rw [show (1:Int) = 10^0 from rfl, ← Nat.zero_add g.length, h]
      simp [parse32]

end Ulz.Parsetext

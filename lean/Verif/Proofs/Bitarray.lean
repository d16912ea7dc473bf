import Verif.Model.Bitarray
import Verif.Proofs.Base
/-! Lemmas about bit arrays. -/
namespace Ulz.Bitarray

/-- Bit number `y` of an array. -/
def bit (x : List Byte) (y : Nat) : Bool := ((x[y / 8]?).getD 0).getLsbD (y % 8)

theorem getLsbD_shift1 (k i : Nat) (hi : i < 8) : (1#8 <<< k).getLsbD i = decide (i = k) := by
  simp only [BitVec.getLsbD_shiftLeft, BitVec.getLsbD_one]
  by_cases h : i < k
  · simp [h, show i ≠ k by omega]
  · by_cases h2 : i = k
    · subst h2; simp [hi]
    · simp [show ¬(i - k = 0) by omega, h2]

theorem and_shift_ne (b : Byte) (k : Nat) (hk : k < 8) : decide (b &&& (1#8 <<< k) ≠ 0) = b.getLsbD k := by
  cases hb : b.getLsbD k with
  | true =>
    rw [decide_eq_true_eq]
    intro h
    have := congrArg (fun x => BitVec.getLsbD x k) h
    simp only [BitVec.getLsbD_and, getLsbD_shift1 _ _ hk, hb] at this
    exact absurd this (by simp)
  | false =>
    rw [decide_eq_false_iff_not, Decidable.not_not]
    apply BitVec.eq_of_getLsbD_eq
    intro i hi
    rw [BitVec.getLsbD_and, getLsbD_shift1 _ _ hi]
    by_cases hik : i = k
    · subst hik; rw [hb]; simp
    · simp [hik]

theorem get_spec {x : List Byte} {y : Nat} (h : y < 8 * x.length) : BA_GET x y = .ok (bit x y) := by
  have hi : y / 8 < x.length := by omega
  unfold BA_GET bit
  rw [rd_ok hi, ok_bind, and_shift_ne _ _ (Nat.mod_lt _ (by omega)), List.getElem?_eq_getElem hi]
  rfl

theorem bit_set {x : List Byte} {y z : Nat} {v : Byte} (hy : y / 8 < x.length) :
    bit (x.set (y / 8) v) z = if z / 8 = y / 8 then v.getLsbD (z % 8) else bit x z := by
  unfold bit
  by_cases h : z / 8 = y / 8
  · rw [if_pos h, h, List.getElem?_set_self hy]; rfl
  · rw [if_neg h, List.getElem?_set_ne (Ne.symm h)]

theorem set_spec {x : List Byte} {y : Nat} (h : y < 8 * x.length) (c : Bool) : ∃ x', BA_SET x y c = .ok x' ∧ x'.length = x.length ∧
    ∀ z, bit x' z = if z = y then c else bit x z := by
  have hi : y / 8 < x.length := by omega
  have hx : (x[y / 8]?).getD 0 = x[y / 8] := by rw [List.getElem?_eq_getElem hi]; rfl
  have hk : y % 8 < 8 := Nat.mod_lt _ (by omega)
  cases c with
  | true =>
    refine ⟨x.set (y / 8) (x[y / 8] ||| (1#8 <<< (y % 8))), ?_, List.length_set, ?_⟩
    · simp only [BA_SET, if_true, BA_SET_TRUE]
      rw [rd_ok hi, ok_bind, wr_ok hi]
    · intro z
      have hz : z % 8 < 8 := Nat.mod_lt _ (by omega)
      rw [bit_set hi]
      by_cases h1 : z / 8 = y / 8
      · rw [if_pos h1, BitVec.getLsbD_or, getLsbD_shift1 _ _ hz]
        have hb : bit x z = x[y / 8].getLsbD (z % 8) := by unfold bit; rw [h1, hx]
        by_cases h2 : z = y
        · subst h2; simp
        · rw [if_neg h2, hb, decide_eq_false (by omega), Bool.or_false]
      · rw [if_neg h1, if_neg (by rintro rfl; exact h1 rfl)]
  | false =>
    refine ⟨x.set (y / 8) (x[y / 8] &&& ~~~(1#8 <<< (y % 8))), ?_, List.length_set, ?_⟩
    · simp only [BA_SET, Bool.false_eq_true, if_false, BA_SET_FALSE]
      rw [rd_ok hi, ok_bind, wr_ok hi]
    · intro z
      have hz : z % 8 < 8 := Nat.mod_lt _ (by omega)
      rw [bit_set hi]
      by_cases h1 : z / 8 = y / 8
      · rw [if_pos h1, BitVec.getLsbD_and, BitVec.getLsbD_not, getLsbD_shift1 _ _ hz]
        have hb : bit x z = x[y / 8].getLsbD (z % 8) := by unfold bit; rw [h1, hx]
        by_cases h2 : z = y
        · subst h2; simp
        · rw [if_neg h2, hb, decide_eq_false (show ¬z % 8 = y % 8 by omega), decide_eq_true hz]; simp
      · rw [if_neg h1, if_neg (by rintro rfl; exact h1 rfl)]

end Ulz.Bitarray

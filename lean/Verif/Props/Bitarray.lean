import Verif.Proofs.Bitarray
/-! Property C72: bit arrays. -/
namespace Ulz.Props
open Ulz.Bitarray

/-- C72: for every array, every index inside it and every truth value: `BA_SET` stays inside the array, reading that bit
    gives the value, reading any other bit gives what it gave before. -/
theorem bitarray_set_get (x : List Byte) (y : Nat) (c : Bool) (h : y < 8 * x.length) :
    ∃ x', BA_SET x y c = .ok x' ∧ x'.length = x.length ∧ BA_GET x' y = .ok c ∧ ∀ z, z ≠ y → BA_GET x' z = BA_GET x z := by
  obtain ⟨x', h1, h2, h3⟩ := set_spec h c
  refine ⟨x', h1, h2, by rw [get_spec (by omega), h3, if_pos rfl], fun z hz => ?_⟩
  by_cases hl : z < 8 * x.length
  · rw [get_spec (by omega), get_spec hl, h3, if_neg hz]
  · unfold BA_GET rd
    rw [List.getElem?_eq_none (by omega), List.getElem?_eq_none (by omega)]

/-- C72: the bits outside the array can be neither read nor set. -/
theorem bitarray_outside (x : List Byte) (y : Nat) (c : Bool) (h : 8 * x.length ≤ y) :
    BA_GET x y = .error .oobRead ∧ BA_GET_SWAPPED x y = .error .oobRead ∧ BA_SET x y c = .error .oobRead := by
  have e : ∀ i, x.length ≤ i → rd x i = .error .oobRead := fun i hi => by unfold rd; rw [List.getElem?_eq_none hi]
  refine ⟨?_, ?_, ?_⟩
  · unfold BA_GET; rw [e _ (by omega)]; rfl
  · unfold BA_GET_SWAPPED BA_GET; rw [e _ (by omega)]; rfl
  · unfold BA_SET BA_SET_TRUE BA_SET_FALSE
    rw [e _ (by omega)]
    cases c <;> rfl

example : BA_GET [255] 8 = .error .oobRead ∧ BA_GET [255] 7 = .ok true := by decide

/-- C72: `BA_GET` reads bit `y mod 8` (counted from the least significant one) of byte `y / 8`. -/
theorem bitarray_get (x : List Byte) (y : Nat) (h : y / 8 < x.length) : BA_GET x y = .ok (x[y / 8].getLsbD (y % 8)) := by
  rw [get_spec (by omega), bit, List.getElem?_eq_getElem h]; rfl

/-- C72: `BA_GET_SWAPPED` counts the bits of the same byte from the most significant one. -/
theorem bitarray_get_swapped (x : List Byte) (y : Nat) (h : y / 8 < x.length) :
    BA_GET_SWAPPED x y = .ok (x[y / 8].getMsbD (y % 8)) := by
  unfold BA_GET_SWAPPED
  have h1 : (y / 8 * 8 + (7 - y % 8)) / 8 = y / 8 := by omega
  have h2 : (y / 8 * 8 + (7 - y % 8)) % 8 = 7 - y % 8 := by omega
  rw [get_spec (by omega), bit, h1, h2, List.getElem?_eq_getElem h]
  have : y % 8 < 8 := Nat.mod_lt _ (by omega)
  simp only [Option.getD_some, BitVec.getMsbD, this, decide_true, Bool.true_and]

/-- C72: `BA_SIZE_REQUIRED` is the least number of bytes with room for that many bits. -/
theorem bitarray_size (n k : Nat) : n ≤ 8 * k ↔ BA_SIZE_REQUIRED n ≤ k := by
  unfold BA_SIZE_REQUIRED
  split <;> omega

/-- C72: so every one of `n` bits can be set and read in an array of `BA_SIZE_REQUIRED(n)` bytes. -/
theorem bitarray_fits (n : Nat) (x : List Byte) (h : x.length = BA_SIZE_REQUIRED n) (y : Nat) (hy : y < n) : y < 8 * x.length := by
  have := (bitarray_size n x.length).2 (by omega)
  omega

example : ∃ x', BA_SET [0, 0] 10 true = .ok x' ∧ BA_GET x' 10 = .ok true ∧ BA_GET x' 9 = .ok false :=
  ⟨[0, 4], by decide, by decide, by decide⟩

/-- C72: `BYTEM` and `BYTEL` build the byte from its bits, most and least significant bit first. -/
theorem bytem_bytel (a b c d e f g h : Bool) :
    (List.range 8).map (BYTEM a b c d e f g h).getMsbD = [a, b, c, d, e, f, g, h] ∧
    (List.range 8).map (BYTEL a b c d e f g h).getLsbD = [a, b, c, d, e, f, g, h] := by
  cases a <;> cases b <;> cases c <;> cases d <;> cases e <;> cases f <;> cases g <;> cases h <;> decide

end Ulz.Props

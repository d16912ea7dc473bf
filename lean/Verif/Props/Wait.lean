import Verif.Model.Wait
/-! Property C142: the result of process_close. -/
namespace Ulz.Props
open Ulz.Wait

/-- C142: for a child that exits, process_close returns its exit code modulo 256, hence the code itself if it is below 256. -/
theorem process_close_exited (retval code : BitVec 32) : (Wait.process_close retval (some (.exited code))).toNat = code.toNat % 256 := by
  have h : Wait.process_close retval (some (.exited code)) = code &&& 0xff#32 := by
    simp only [Wait.process_close, status, WEXITSTATUS]
    apply BitVec.eq_of_getLsbD_eq
    intro i hi
    simp only [BitVec.getLsbD_ushiftRight, BitVec.getLsbD_and, BitVec.getLsbD_shiftLeft]
    have h1 : ∀ i, i < 32 → (0xff00#32).getLsbD (8 + i) = (0xff#32).getLsbD i := by decide
    rw [h1 i hi, show ¬ (8 + i < 8) by omega |> decide_eq_false, show 8 + i - 8 = i by omega]
    have h2 : ∀ i, i < 32 → 24 ≤ i → (0xff#32).getLsbD i = false := by decide
    by_cases h : 8 + i < 32
    · simp [h]
    · rw [h2 i hi (by omega)]; simp
  rw [h, BitVec.toNat_and]
  exact Nat.and_two_pow_sub_one_eq_mod code.toNat 8

/-- C142: a child that is killed by a signal looks like one that succeeded: the result is 0. -/
theorem process_close_killed (retval : BitVec 32) (signal : Nat) (core : Bool) : Wait.process_close retval (some (.killed signal core)) = 0 := by
  have h : ∀ (s : Fin 128) (c : Bool), WEXITSTATUS (BitVec.ofNat 32 s.1 ||| (if c then 0x80#32 else 0#32)) = 0 := by decide +kernel
  exact h ⟨signal % 128, Nat.mod_lt _ (by decide)⟩ core

/-- C142: if waiting fails, the result is taken from an uninitialised variable: any value up to 255. -/
theorem process_close_failed (v : BitVec 32) : (∃ retval, Wait.process_close retval none = v) ↔ v.toNat < 256 := by
  constructor
  · rintro ⟨r, rfl⟩
    simp only [Wait.process_close, WEXITSTATUS, BitVec.toNat_ushiftRight, BitVec.toNat_and, Nat.shiftRight_eq_div_pow]
    have : r.toNat &&& (0xff00#32).toNat ≤ 0xff00 := Nat.and_le_right
    omega
  · intro h
    refine ⟨v <<< 8, ?_⟩
    have h1 : ∀ k : Fin 256, WEXITSTATUS (BitVec.ofNat 32 k.1 <<< 8) = BitVec.ofNat 32 k.1 := by decide +kernel
    have h2 := h1 ⟨v.toNat, h⟩
    simpa [Wait.process_close] using h2

example : (Wait.process_close 0xdeadbeef#32 (some (.exited 3#32))).toNat = 3 := process_close_exited _ _
example : (Wait.process_close 0xdeadbeef#32 (some (.exited (-1)))).toNat = 255 := process_close_exited _ _
example : Wait.process_close 0xdeadbeef#32 (some (.killed 11 true)) = 0 := process_close_killed _ _ _
example : Wait.process_close 0xdeadbeef#32 none = 0xbe#32 := by decide

end Ulz.Props

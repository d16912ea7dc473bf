import Verif.Proofs.Md5Table
import Mathlib.Algebra.Order.Floor.Ring
/-! The constants of MD5 (C22). -/
namespace Ulz.Props

/-- C22: the table of the specification, which `md5_correct` compares the code with, is what RFC 1321 says: entry `i` (from 1) is
    the integer part of 4294967296 times abs(sin(i)), `i` in radians. -/
theorem md5_constants : Md5.Spec.T.length = 64 ∧
    ∀ i < 64, ((Md5.Spec.T.getD i 0).toNat : ℤ) = ⌊(4294967296 : ℝ) * |Real.sin ((i + 1 : ℕ) : ℝ)|⌋ := by
  refine ⟨rfl, fun i hi => ?_⟩
  obtain ⟨h1, h2⟩ := Md5.Table.table_sin hi
  have e : (4294967296 : ℝ) = 2 ^ 32 := by norm_num
  rw [e]
  refine (Int.floor_eq_iff.2 ⟨?_, ?_⟩).symm
  · exact_mod_cast h1
  · exact_mod_cast h2

end Ulz.Props

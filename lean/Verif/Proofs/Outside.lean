import Verif.Proofs.Tglist
/-! Lemmas for C222. -/
namespace Ulz.Tglist
open Spec

/-- The number of bytes that memmove is asked for when there are fewer items than the place. -/
theorem wrap_size {count pos isz : Nat} (hi : 0 < isz) (hlt : count < pos) (hb : pos * isz < 2 ^ 64) :
    szt (sztSub count (szt pos) * isz) + (pos - count) * isz = 2 ^ 64 := by
  have hp : pos < 2 ^ 64 := Nat.lt_of_le_of_lt (Nat.le_mul_of_pos_right pos hi) hb
  obtain ⟨d, rfl⟩ : ∃ d, pos = count + (d + 1) := ⟨pos - count - 1, by omega⟩
  have e1 : sztSub count (szt (count + (d + 1))) = 2 ^ 64 - (d + 1) := by unfold sztSub szt; omega
  rw [e1, Nat.add_sub_cancel_left]
  have h1 : (d + 1) * isz < 2 ^ 64 := Nat.lt_of_le_of_lt (Nat.mul_le_mul_right isz (by omega)) hb
  have h2 : 0 < (d + 1) * isz := Nat.mul_pos (by omega) hi
  have h3 : (2 ^ 64 - (d + 1)) * isz + (d + 1) * isz = 2 ^ 64 * isz := by rw [← Nat.add_mul]; congr 1; omega
  generalize (d + 1) * isz = y at *
  generalize (2 ^ 64 - (d + 1)) * isz = x at *
  unfold szt
  omega

theorem memmove_far {b : List Byte} {dst src n : Nat} (h : b.length < src + n) : memmove b dst src n = .error .oobRead := by
  unfold memmove rdN
  rw [if_neg (by omega)]
  rfl

end Ulz.Tglist

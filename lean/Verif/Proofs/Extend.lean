import Verif.Spec.Extend
import Verif.Proofs.Md5
import Verif.Proofs.Sha512
/-! Continuing a hash from its digest. -/
namespace Ulz.Md5
open Spec

theorem pad_suffix (s : List Byte) : pad s = s ++ suffix s.length := by
  unfold pad suffix; simp only [List.append_assoc]

theorem suffix_length (n : Nat) : (suffix n).length = 1 + (119 - n % 64) % 64 + 8 := by
  unfold suffix; simp only [List.length_append, List.length_replicate, List.length_map, List.length_range, List.length_singleton]

theorem pad_mod (s : List Byte) : (pad s).length % 64 = 0 := by
  rw [pad_suffix, List.length_append, suffix_length]; omega

theorem word_bytes (P Q : List Byte) (x : W) (j : Nat) (h : P.length = 4 * j) : word (P ++ bytesLE x ++ Q) j = x := by
  unfold word bytesLE
  have g : ∀ i, i < 4 → (P ++ (List.range 4).map (fun j => x.extractLsb' (8 * j) 8) ++ Q).getD (4 * j + i) 0 = x.extractLsb' (8 * i) 8 := by
    intro i hi
    have hl : ((List.range 4).map (fun j => x.extractLsb' (8 * j) 8)).length = 4 := rfl
    rw [List.append_assoc, List.getD_eq_getElem?_getD, List.getElem?_append_right (by omega), h, Nat.add_sub_cancel_left,
      List.getElem?_append_left (by omega), List.getElem?_map, List.getElem?_range hi]
    rfl
  have g0 := g 0 (by omega)
  rw [Nat.add_zero] at g0
  rw [g0, g 1 (by omega), g 2 (by omega), g 3 (by omega)]
  apply BitVec.eq_of_getLsbD_eq
  intro i hi
  simp only [BitVec.getLsbD_append, BitVec.getLsbD_extractLsb']
  split
  · simp only [decide_true, *, Bool.true_and]; congr 1; omega
  · split
    · simp only [decide_true, *, Bool.true_and]; congr 1; omega
    · split
      · simp only [decide_true, *, Bool.true_and]; congr 1; omega
      · have : i - 8 - 8 - 8 < 8 := by omega
        simp only [this, decide_true, Bool.true_and]; congr 1; omega

theorem regs_digest (a b c d : W) : regs (bytesLE a ++ bytesLE b ++ bytesLE c ++ bytesLE d) = (a, b, c, d) := by
  have l := bytesLE_length
  unfold regs
  have h0 := word_bytes [] (bytesLE b ++ bytesLE c ++ bytesLE d) a 0 rfl
  have h1 := word_bytes (bytesLE a) (bytesLE c ++ bytesLE d) b 1 rfl
  have h2 := word_bytes (bytesLE a ++ bytesLE b) (bytesLE d) c 2 rfl
  have h3 := word_bytes (bytesLE a ++ bytesLE b ++ bytesLE c) [] d 3 rfl
  simp only [List.nil_append, List.append_nil, List.append_assoc] at h0 h1 h2 h3 ⊢
  rw [h0, h1, h2, h3]

theorem regs_md5 (s : List Byte) : regs (md5 s) = process iv (pad s) := by
  unfold md5
  generalize process iv (pad s) = r
  obtain ⟨a, b, c, d⟩ := r
  exact regs_digest a b c d

theorem forged_rep (s : List Byte) {junk : List Byte} (h : junk.length = 64) :
    Rep ⟨junk, BitVec.ofNat 64 (pad s).length, regs (md5 s)⟩ (pad s) :=
  ⟨pad s, [], junk, by simp, pad_mod s, rfl, regs_md5 s, by simp, by simp [h], by simp⟩

end Ulz.Md5

namespace Ulz.Sha512
open Spec

theorem pad_suffix (s : List Byte) : pad s = s ++ suffix s.length := by
  unfold pad suffix; simp only [List.append_assoc]

theorem suffix_length (n : Nat) : (suffix n).length = 1 + (239 - n % 128) % 128 + 16 := by
  unfold suffix; simp only [List.length_append, List.length_replicate, List.length_map, List.length_range, List.length_singleton]

theorem pad_mod (s : List Byte) : (pad s).length % 128 = 0 := by
  rw [pad_suffix, List.length_append, suffix_length]; omega

theorem forged_rep (s : List Byte) :
    Rep ⟨sha512 s, List.replicate 256 0, BitVec.ofNat 64 (pad s).length⟩ (pad s) [] :=
  ⟨pad_mod s, by decide, rfl, rfl, by simp⟩

end Ulz.Sha512

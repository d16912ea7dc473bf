import Verif.Spec.Blocks
namespace Ulz

theorem blocks_append {sz : Nat} : ∀ (n k : Nat) (a b : List Byte), a.length = n * sz →
    blocks sz (n + k) (a ++ b) = blocks sz n a ++ blocks sz k b
  | 0, k, a, b, h => by
    rw [Nat.zero_mul] at h
    simp [List.eq_nil_of_length_eq_zero h, blocks]
  | n + 1, k, a, b, h => by
    rw [Nat.succ_mul] at h
    rw [show n + 1 + k = (n + k) + 1 by omega]
    simp only [blocks, List.cons_append]
    rw [List.take_append_of_le_length (by omega), List.drop_append_of_le_length (by omega),
      blocks_append n k _ b (by rw [List.length_drop]; omega)]

theorem blocks_one {sz : Nat} (b : List Byte) (h : b.length = sz) : blocks sz 1 b = [b] := by
  simp [blocks, ← h]

/-- Folding over the blocks of a concatenation. -/
theorem fold_append {σ : Type} (f : σ → List Byte → σ) (s : σ) {sz : Nat} (hsz : 0 < sz) (a b : List Byte)
    (h : a.length % sz = 0) :
    (blocks sz ((a ++ b).length / sz) (a ++ b)).foldl f s =
      (blocks sz (b.length / sz) b).foldl f ((blocks sz (a.length / sz) a).foldl f s) := by
  have h1 : a.length = a.length / sz * sz := by
    have := Nat.div_add_mod a.length sz
    rw [h, Nat.add_zero, Nat.mul_comm] at this
    exact this.symm
  have h2 : (a ++ b).length / sz = a.length / sz + b.length / sz := by
    rw [List.length_append]
    conv => lhs; rw [h1]
    rw [Nat.add_comm, Nat.add_mul_div_right _ _ hsz, Nat.add_comm]
  rw [h2, blocks_append _ _ a b h1, List.foldl_append]

theorem fold_one {σ : Type} (f : σ → List Byte → σ) (s : σ) {sz : Nat} (hsz : 0 < sz) (b : List Byte)
    (h : b.length = sz) : (blocks sz (b.length / sz) b).foldl f s = f s b := by
  rw [h, Nat.div_self hsz, blocks_one b h]; rfl

end Ulz

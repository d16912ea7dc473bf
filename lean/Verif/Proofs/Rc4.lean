import Verif.Model.Rc4
import Verif.Spec.Rc4
import Verif.Proofs.Base
set_option linter.unusedSimpArgs false
set_option linter.unusedVariables false
namespace Ulz.Rc4
open Spec

/-- The 256-entry array `box` represents the function `S`. -/
def Rep (box : List Byte) (S : Byte → Byte) : Prop :=
  box.length = 256 ∧ ∀ k : Byte, box[k.toNat]? = some (S k)

theorem Rep.rd {box S} (h : Rep box S) (k : Byte) {i : Nat} (hi : i = k.toNat) : rd box i = .ok (S k) := by
  simp [Ulz.rd, hi, h.2 k]

theorem Rep.swap {box S} (h : Rep box S) (i j : Byte) :
    ∃ box', swapAt box i.toNat j.toNat = .ok box' ∧ Rep box' (swap S i j) := by
  have hi : i.toNat < 256 := i.isLt; have hj : j.toNat < 256 := j.isLt
  refine ⟨(box.set i.toNat (S j)).set j.toNat (S i), ?_, by simp [h.1], ?_⟩
  · unfold swapAt
    rw [h.rd i rfl, h.rd j rfl]
    simp only [ok_bind]
    rw [wr_ok (by rw [h.1]; exact hi)]
    simp only [ok_bind]
    rw [wr_ok (by simp [h.1, hj])]
  · intro k
    have hk : k.toNat < 256 := k.isLt
    simp only [List.getElem?_set, List.length_set, h.1, h.2 k]
    unfold Spec.swap
    by_cases h1 : k = j
    · subst h1
      simp
      by_cases h2 : k = i
      · subst h2; simp [hk]
      · simp [h2, hk]
    · have : j.toNat ≠ k.toNat := fun e => h1 (BitVec.eq_of_toNat_eq e.symm)
      by_cases h2 : k = i
      · subst h2; simp [this, hk]
      · have : i.toNat ≠ k.toNat := fun e => h2 (BitVec.eq_of_toNat_eq e.symm)
        simp [*]

theorem toNat_add3 (a b c : Byte) : (a + b + c).toNat = (a.toNat + b.toNat + c.toNat) % 256 := by
  simp [BitVec.toNat_add]

theorem rep_id : Rep ((List.range 256).map (BitVec.ofNat 8)) id := by
  refine ⟨by simp, ?_⟩
  intro k
  have hk := k.isLt
  simp only [List.getElem?_map, List.getElem?_range hk, Option.map_some, id]
  simp

theorem schedule_rep (key : List Byte) (hk : 0 < key.length) : ∀ (n x : Nat) (box : List Byte),
    x + n ≤ 256 → Rep box (ksa key hk x).1 →
    ∃ box', schedule key n x (ksa key hk x).2.toNat (x % key.length) box = .ok box' ∧
      Rep box' (ksa key hk (x + n)).1
  | 0, x, box, hx, hr => ⟨box, rfl, hr⟩
  | n + 1, x, box, hx, hr => by
    have hxn : (BitVec.ofNat 8 x).toNat = x := by simp; omega
    have hz : x % key.length < key.length := Nat.mod_lt _ hk
    simp only [schedule]
    rw [hr.rd (BitVec.ofNat 8 x) hxn.symm, rd_ok hz]
    simp only [ok_bind]
    rw [← toNat_add3]
    obtain ⟨box', hs, hrep⟩ := hr.swap (BitVec.ofNat 8 x)
      ((ksa key hk x).2 + (ksa key hk x).1 (BitVec.ofNat 8 x) + key[x % key.length])
    rw [hxn] at hs
    rw [hs]
    simp only [ok_bind]
    have hz' : (if x % key.length + 1 = key.length then 0 else x % key.length + 1) = (x + 1) % key.length := by
      rw [Nat.add_mod]
      by_cases h1 : key.length = 1
      · simp [h1, Nat.mod_one]
      · rw [Nat.mod_eq_of_lt (a := 1) (by omega)]
        split
        · rename_i h; rw [h]; simp
        · rw [Nat.mod_eq_of_lt (a := x % key.length + 1) (by omega)]
    rw [hz']
    obtain ⟨b, hb, hrb⟩ := schedule_rep key hk n (x + 1) box' (by omega) hrep
    refine ⟨b, hb, ?_⟩
    rw [show x + (n + 1) = x + 1 + n by omega]; exact hrb

theorem initBox_rep (key : List Byte) (hk : 0 < key.length) :
    ∃ box, initBox key = .ok box ∧ Rep box (ksa key hk 256).1 := by
  have := schedule_rep key hk 256 0 _ (by omega) rep_id
  rw [Nat.zero_add, Nat.zero_mod] at this
  exact this

theorem step_rep {box S} (h : Rep box S) (i j : Byte) :
    ∃ box', step box i.toNat j.toNat =
      .ok (box', (i + 1).toNat, (j + S (i + 1)).toNat,
        Spec.swap S (i+1) (j + S (i+1)) (Spec.swap S (i+1) (j + S (i+1)) (i+1) +
          Spec.swap S (i+1) (j + S (i+1)) (j + S (i+1)))) ∧ Rep box' (Spec.swap S (i+1) (j + S (i+1))) := by
  have e1 : (i.toNat + 1) % 256 = (i + 1).toNat := by simp [BitVec.toNat_add]
  obtain ⟨box', hs, hrep⟩ := h.swap (i + 1) (j + S (i + 1))
  refine ⟨box', ?_, hrep⟩
  unfold step
  simp only [e1]
  rw [h.rd (i + 1) rfl]
  simp only [ok_bind]
  have e2 : (j.toNat + (S (i + 1)).toNat) % 256 = (j + S (i + 1)).toNat := by simp [BitVec.toNat_add]
  rw [e2, hs]
  simp only [ok_bind]
  rw [hrep.rd (i + 1) rfl, hrep.rd (j + S (i + 1)) rfl]
  simp only [ok_bind]
  rw [hrep.rd (_ + _) (by rw [BitVec.toNat_add])]
  simp

theorem crypt_put (b src : List Byte) : ∀ (n x : Nat) (i j : Byte) (box : List Byte) (S) (xs : List Byte),
    x = xs.length → x + n ≤ src.length → x + n ≤ b.length → Rep box S →
    crypt src n x i.toNat j.toNat box (put b 0 xs) =
      .ok (put b 0 (xs ++ List.zipWith (· ^^^ ·) (src.drop x) (prga n S i j)))
  | 0, x, i, j, box, S, xs, hx, hs, hb, hr => by simp [crypt, prga]
  | n + 1, x, i, j, box, S, xs, hx, hs, hb, hr => by
    obtain ⟨box', hst, hrep⟩ := step_rep hr i j
    simp only [crypt, hst, ok_bind]
    rw [rd_ok (by omega : x < src.length)]
    simp only [ok_bind]
    rw [wr_put0 hx (by omega)]
    simp only [ok_bind]
    rw [crypt_put b src n (x + 1) (i + 1) (j + S (i + 1)) box' _ _ (by simp; omega) (by omega) (by omega) hrep]
    rw [List.drop_eq_getElem_cons (by omega : x < src.length)]
    simp only [prga, List.zipWith_cons_cons, List.append_assoc, List.cons_append, List.nil_append]

theorem cryptInPlace_put (b : List Byte) : ∀ (n x : Nat) (i j : Byte) (box : List Byte) (S) (xs : List Byte),
    x = xs.length → x + n ≤ b.length → Rep box S →
    cryptInPlace n x i.toNat j.toNat box (put b 0 xs) =
      .ok (put b 0 (xs ++ List.zipWith (· ^^^ ·) (b.drop x) (prga n S i j)))
  | 0, x, i, j, box, S, xs, hx, hb, hr => by simp [cryptInPlace, prga]
  | n + 1, x, i, j, box, S, xs, hx, hb, hr => by
    obtain ⟨box', hst, hrep⟩ := step_rep hr i j
    simp only [cryptInPlace, hst, ok_bind]
    have hrd : rd (put b 0 xs) x = .ok b[x] := by
      rw [put_zero, rd_append_right (by omega)]
      subst hx
      simp [rd, List.getElem?_drop]
      rw [List.getElem?_eq_getElem (by omega)]
    rw [hrd]
    simp only [ok_bind]
    rw [wr_put0 hx (by omega)]
    simp only [ok_bind]
    rw [cryptInPlace_put b n (x + 1) (i + 1) (j + S (i + 1)) box' _ _ (by simp; omega) (by omega) hrep]
    rw [List.drop_eq_getElem_cons (by omega : x < b.length)]
    simp only [prga, List.zipWith_cons_cons, List.append_assoc, List.cons_append, List.nil_append]

theorem prga_length : ∀ (n : Nat) (S) (i j : Byte), (prga n S i j).length = n
  | 0, _, _, _ => rfl
  | n + 1, S, i, j => by simp [prga, prga_length n]

theorem prga_take : ∀ (n m : Nat) (S) (i j : Byte), (prga (n + m) S i j).take n = prga n S i j
  | 0, m, _, _, _ => by simp [prga]
  | n + 1, m, S, i, j => by
    rw [show n + 1 + m = (n + m) + 1 by omega]
    simp [prga, prga_take n m]

theorem zipWith_xor_involutive : ∀ (a k : List Byte), a.length ≤ k.length →
    List.zipWith (· ^^^ ·) (List.zipWith (· ^^^ ·) a k) k = a
  | [], _, _ => by simp
  | x :: a, [], h => by simp at h
  | x :: a, y :: k, h => by
    simp only [List.zipWith_cons_cons, List.length_cons] at *
    rw [zipWith_xor_involutive a k (by omega), BitVec.xor_assoc, BitVec.xor_self, BitVec.xor_zero]

theorem schedule_nokey (n x y : Nat) (box : List Byte) (h : x < box.length) :
    schedule [] (n + 1) x y 0 box = .error .oobRead := by
  simp only [schedule, rd_ok h, ok_bind]; simp [rd]

theorem zipWith_append_short (f : Byte → Byte → Byte) : ∀ (a b k : List Byte), k.length ≤ a.length →
    List.zipWith f (a ++ b) k = List.zipWith f a k
  | [], b, [], _ => by simp
  | [], b, y :: k, h => by simp at h
  | x :: a, b, [], _ => by simp
  | x :: a, b, y :: k, h => by
    simp only [List.cons_append, List.zipWith_cons_cons, List.length_cons] at *
    rw [zipWith_append_short f a b k (by omega)]

end Ulz.Rc4

import Verif.Proofs.CrcPoly
import Mathlib.Data.Fintype.Card
import Mathlib.Data.Set.Finite.Basic
import Mathlib.Logic.Equiv.Fin.Basic
import Mathlib.Data.Finset.Card
/-! The CRC as a group of bijections: forging, adding and combining messages, zeros at the ends. -/
namespace Ulz.Crc
open Spec Polynomial

/-- The shift register can be run backwards. -/
theorem sh_surj {p : W32} (hp : p.getLsbD 31 = true) (y : W32) : ∃ x, sh p x = y := by
  have key : ∀ z : W32, z.getLsbD 31 = false → (z <<< 1) >>> 1 = z := by
    intro z hz
    apply BitVec.eq_of_getLsbD_eq
    intro i hi
    rw [BitVec.getLsbD_ushiftRight, BitVec.getLsbD_shiftLeft]
    by_cases h : i = 31
    · subst h; rw [hz]; simp
    · simp; omega
  by_cases h : y.getLsbD 31 = true
  · refine ⟨((y ^^^ p) <<< 1) ^^^ 1, ?_⟩
    have h0 : ((((y ^^^ p) <<< 1) ^^^ 1 : W32)).getLsbD 0 = true := by
      rw [BitVec.getLsbD_xor, BitVec.getLsbD_shiftLeft]; simp
    unfold sh
    rw [h0, BitVec.ushiftRight_xor_distrib, key _ (by rw [BitVec.getLsbD_xor, h, hp]; rfl), if_pos rfl]
    rw [show (1 : W32) >>> 1 = 0#32 by decide, BitVec.xor_zero, BitVec.xor_assoc, BitVec.xor_self, BitVec.xor_zero]
  · have h : y.getLsbD 31 = false := by simpa using h
    refine ⟨y <<< 1, ?_⟩
    rw [sh_even (by rw [BitVec.getLsbD_shiftLeft]; simp), key y h]

theorem feeds_surj {p : W32} (hp : p.getLsbD 31 = true) : ∀ (bs : List Bool) (y : W32), ∃ s, bs.foldl (feed p) s = y
  | [], y => ⟨y, rfl⟩
  | b :: bs, y => by
    obtain ⟨t, ht⟩ := feeds_surj hp bs y
    obtain ⟨x, hx⟩ := sh_surj hp t
    refine ⟨x ^^^ bit1 b, ?_⟩
    rw [List.foldl_cons, feed_eq, BitVec.xor_assoc, BitVec.xor_self, BitVec.xor_zero, hx, ht]

theorem shn_surj {p : W32} (hp : p.getLsbD 31 = true) : ∀ (n : Nat) (y : W32), ∃ s, shn p n s = y
  | 0, y => ⟨y, rfl⟩
  | n + 1, y => by
    obtain ⟨t, ht⟩ := shn_surj hp n y
    obtain ⟨x, hx⟩ := sh_surj hp t
    exact ⟨x, by rw [shn, hx, ht]⟩

/-- Four bytes in the middle of a message bring the register to any state. -/
theorem forge {p : W32} (hp : p.getLsbD 31 = true) (a b : List Byte) (y : W32) : ∃ w : W32, crc p (a ++ le32 w ++ b) = y := by
  obtain ⟨t, ht⟩ := feeds_surj hp (bits b) (~~~ y)
  obtain ⟨x, hx⟩ := shn_surj hp 32 t
  refine ⟨x ^^^ (bits a).foldl (feed p) 0xffffffff, ?_⟩
  unfold crc
  rw [bits_append, bits_append, List.foldl_append, List.foldl_append]
  rw [feed_word p (bits (le32 _)) _ (by rw [bits_length]; exact Nat.le_refl 32), bits_length, word_le32]
  rw [BitVec.xor_comm x, ← BitVec.xor_assoc, BitVec.xor_self, BitVec.zero_xor]
  show ~~~ List.foldl (feed p) (shn p 32 x) (bits b) = y
  rw [hx, ht, BitVec.not_not]

/-- Feeding zeros. -/
theorem feed_false (p : W32) : ∀ (n : Nat) (s : W32), (List.replicate n false).foldl (feed p) s = shn p n s
  | 0, _ => rfl
  | n + 1, s => by
    rw [List.replicate_succ, List.foldl_cons, feed_false p n, feed_eq]
    show shn p n (sh p (s ^^^ 0#32)) = _
    rw [BitVec.xor_zero]; rfl

theorem bits_zeros : ∀ k, bits (List.replicate k 0) = List.replicate (8 * k) false
  | 0 => rfl
  | k + 1 => by
    have h : bits (0 :: List.replicate k 0) = List.replicate 8 false ++ bits (List.replicate k 0) := by
      simp only [bits, List.flatMap_cons]
      congr 1
    rw [List.replicate_succ, h, bits_zeros k, List.replicate_append_replicate]
    congr 1
    omega

/-- The CRC of two messages one after the other. -/
theorem combine (p : W32) (a b : List Byte) : crc p (a ++ b) = shn p (8 * b.length) (crc p a) ^^^ crc p b := by
  unfold crc
  rw [bits_append, List.foldl_append]
  generalize (bits a).foldl (feed p) 0xffffffff = s
  have h := feed_zeros p (bits b) s 0xffffffff
  rw [bits_length] at h
  rw [← BitVec.xor_allOnes (x := s), show BitVec.allOnes 32 = (0xffffffff : W32) by decide, ← h]
  rw [← BitVec.xor_allOnes, ← BitVec.xor_allOnes (x := List.foldl (feed p) 0xffffffff (bits b))]
  generalize List.foldl (feed p) 0xffffffff (bits b) = u
  generalize List.foldl (feed p) s (bits b) = v
  generalize BitVec.allOnes 32 = o
  rw [BitVec.xor_assoc v, ← BitVec.xor_assoc u, BitVec.xor_self, BitVec.zero_xor]

/-- Bytewise xor. -/
def xorB (a b : List Byte) : List Byte := List.zipWith (· ^^^ ·) a b

theorem byteS_xor (p s t : W32) (a b : Byte) : byteS p (s ^^^ t) (a ^^^ b) = byteS p s a ^^^ byteS p t b := by
  unfold byteS
  rw [← shn_xor]
  congr 1
  rw [BitVec.setWidth_xor]
  ac_rfl

theorem fold_xor (p : W32) : ∀ (a b : List Byte) (s t : W32), a.length = b.length →
    (xorB a b).foldl (byteS p) (s ^^^ t) = a.foldl (byteS p) s ^^^ b.foldl (byteS p) t
  | [], [], _, _, _ => rfl
  | x :: a, y :: b, s, t, h => by
    simp only [xorB, List.zipWith_cons_cons, List.foldl_cons, byteS_xor]
    exact fold_xor p a b _ _ (by simpa using h)

theorem xorB_length (a b : List Byte) (h : a.length = b.length) : (xorB a b).length = a.length := by
  simp [xorB, h]

theorem crc_xor3 (p : W32) (a b c : List Byte) (hb : a.length = b.length) (hc : a.length = c.length) :
    crc p (xorB (xorB a b) c) = crc p a ^^^ crc p b ^^^ crc p c := by
  unfold crc
  rw [feed_bits, feed_bits, feed_bits, feed_bits]
  have e : (0xffffffff : W32) = (0xffffffff ^^^ 0xffffffff) ^^^ 0xffffffff := by decide
  conv_lhs => rw [e]
  rw [fold_xor p _ _ _ _ (by rw [xorB_length _ _ hb, hc]), fold_xor p _ _ _ _ hb]
  rw [← BitVec.xor_allOnes, ← BitVec.xor_allOnes (x := List.foldl (byteS p) 0xffffffff a), ← BitVec.xor_allOnes (x := List.foldl (byteS p) 0xffffffff b),
    ← BitVec.xor_allOnes (x := List.foldl (byteS p) 0xffffffff c)]
  generalize List.foldl (byteS p) 0xffffffff a = u
  generalize List.foldl (byteS p) 0xffffffff b = v
  generalize List.foldl (byteS p) 0xffffffff c = w
  generalize BitVec.allOnes 32 = o
  have : (u ^^^ o) ^^^ (v ^^^ o) = u ^^^ v := by
    rw [BitVec.xor_comm v o, BitVec.xor_assoc, ← BitVec.xor_assoc o, BitVec.xor_self, BitVec.zero_xor]
  rw [this, BitVec.xor_assoc]

/-- The states that a run of zeros leaves alone, for CRC-32. -/
theorem powers32 (s : W32) (hs : s ≠ 0#32) : ∃ j, s = shn revCrc32 j top := by
  have hinj : ∀ i j, i < 4294967295 → j < 4294967295 → i ≤ j → shn revCrc32 i top = shn revCrc32 j top → i = j := by
    intro i j hi hj hij h
    have h1 : shn revCrc32 (j - i) top = top := by
      apply shn_inj (p := revCrc32) (by decide) i
      rw [← shn_add, Nat.sub_add_cancel hij, h]
    have := (period32 _).1 h1
    have := Nat.eq_zero_of_dvd_of_lt this (by omega)
    omega
  have hne : ∀ i, shn revCrc32 i top ≠ 0#32 := by
    intro i h
    exact absurd (shn_inj_zero (p := revCrc32) (by decide) i h) (by decide)
  let f : Fin 4294967295 → Fin 4294967296 := fun i => (shn revCrc32 i.1 top).toFin
  have hf : Function.Injective f := by
    intro i j h
    have h' : shn revCrc32 i.1 top = shn revCrc32 j.1 top := BitVec.toFin_inj.1 h
    rcases Nat.le_total i.1 j.1 with hij | hij
    · exact Fin.ext (hinj _ _ i.2 j.2 hij h')
    · exact Fin.ext (hinj _ _ j.2 i.2 hij h'.symm).symm
  by_contra hno
  have hs' : ∀ i, f i ≠ s.toFin := fun i h => hno ⟨i.1, (BitVec.toFin_inj.1 h).symm⟩
  let g : Option (Option (Fin 4294967295)) → Fin 4294967296
    | none => s.toFin
    | some none => 0
    | some (some i) => f i
  have hg : Function.Injective g := by
    have h0 : ∀ i, f i ≠ 0 := fun i h => hne i.1 (by apply BitVec.toFin_inj.1; exact h)
    have h1 : s.toFin ≠ (0 : Fin 4294967296) := fun h => hs (by apply BitVec.toFin_inj.1; exact h)
    intro a b h
    match a, b, h with
    | none, none, _ => rfl
    | none, some none, h => exact absurd h h1
    | none, some (some i), h => exact absurd h.symm (hs' i)
    | some none, none, h => exact absurd h.symm h1
    | some none, some none, _ => rfl
    | some none, some (some i), h => exact absurd h.symm (h0 i)
    | some (some i), none, h => exact absurd h (hs' i)
    | some (some i), some none, h => exact absurd h (h0 i)
    | some (some i), some (some j), h => rw [hf h]
  have := Fintype.card_le_of_injective g hg
  simp only [Fintype.card_option, Fintype.card_fin] at this
  omega

theorem fixed32 (s : W32) (d : Nat) : shn revCrc32 d s = s ↔ s = 0#32 ∨ 4294967295 ∣ d := by
  constructor
  · intro h
    by_cases hs : s = 0#32
    · exact .inl hs
    · obtain ⟨j, rfl⟩ := powers32 s hs
      rw [← shn_add, Nat.add_comm, shn_add] at h
      exact .inr ((period32 d).1 (shn_inj (by decide) j h))
  · rintro (rfl | h)
    · exact shn_zero _ _
    · by_cases hs : s = 0#32
      · rw [hs]; exact shn_zero _ _
      · obtain ⟨j, rfl⟩ := powers32 s hs
        rw [← shn_add, Nat.add_comm, shn_add, (period32 d).2 h]

/-- The register of CRC-32C has a state that zeros leave alone. -/
def still : W32 := 0xfca42daf

theorem still_shn : ∀ n, shn revCrc32c n still = still
  | 0 => rfl
  | n + 1 => by rw [shn, show sh revCrc32c still = still by decide]; exact still_shn n

theorem powers32c (s : W32) (h0 : s ≠ 0#32) (h1 : s ≠ still) : ∃ j, s = shn revCrc32c j top ∨ s = shn revCrc32c j top ^^^ still := by
  have hinj : ∀ i j, i < 2147483647 → j < 2147483647 → i ≤ j → shn revCrc32c i top = shn revCrc32c j top → i = j := by
    intro i j hi hj hij h
    have h1 : shn revCrc32c (j - i) top = top := by
      apply shn_inj (p := revCrc32c) (by decide) i
      rw [← shn_add, Nat.sub_add_cancel hij, h]
    have := (period32c _).1 h1
    have := Nat.eq_zero_of_dvd_of_lt this (by omega)
    omega
  have hinj' : ∀ i j : Fin 2147483647, shn revCrc32c i.1 top = shn revCrc32c j.1 top → i = j := by
    intro i j h
    rcases Nat.le_total i.1 j.1 with hij | hij
    · exact Fin.ext (hinj _ _ i.2 j.2 hij h)
    · exact Fin.ext (hinj _ _ j.2 i.2 hij h.symm).symm
  have hne : ∀ i, shn revCrc32c i top ≠ 0#32 := by
    intro i h
    exact absurd (shn_inj_zero (p := revCrc32c) (by decide) i h) (by decide)
  have hns : ∀ i, shn revCrc32c i top ≠ still := by
    intro i h
    rw [← still_shn i] at h
    exact absurd (shn_inj (p := revCrc32c) (by decide) i h) (by decide)
  have hpar : ∀ i, par 32 (shn revCrc32c i top) = true := by
    intro i
    rw [par_shn]; decide
  have hpar' : ∀ i, par 32 (shn revCrc32c i top ^^^ still) = false := by
    intro i
    rw [par_xor, hpar]; decide
  have hx : ∀ a b : W32, a ^^^ still = b ^^^ still → a = b := by
    intro a b h
    have := congrArg (· ^^^ still) h
    simpa [BitVec.xor_assoc] using this
  by_contra hno
  have hs1 : ∀ i, s ≠ shn revCrc32c i top := fun i h => hno ⟨i, .inl h⟩
  have hs2 : ∀ i, s ≠ shn revCrc32c i top ^^^ still := fun i h => hno ⟨i, .inr h⟩
  have hxz : ∀ i, shn revCrc32c i top ^^^ still ≠ 0#32 := fun i h => hns i (BitVec.xor_eq_zero_iff.1 h)
  have hxs : ∀ i, shn revCrc32c i top ^^^ still ≠ still := fun i h => by
    have := congrArg (par 32) h
    rw [hpar'] at this; exact absurd this (by decide)
  have hxx : ∀ i j, shn revCrc32c i top ≠ shn revCrc32c j top ^^^ still := fun i j h => by
    have := congrArg (par 32) h
    rw [hpar, hpar'] at this; exact absurd this (by decide)
  let g' : Option (Option (Option (Fin 2147483647 ⊕ Fin 2147483647))) → W32
    | none => s
    | some none => 0#32
    | some (some none) => still
    | some (some (some (.inl i))) => shn revCrc32c i.1 top
    | some (some (some (.inr i))) => shn revCrc32c i.1 top ^^^ still
  have hg : Function.Injective g' := by
    intro a b h
    match a, b, h with
    | none, none, _ => rfl
    | none, some none, h => exact absurd h h0
    | none, some (some none), h => exact absurd h h1
    | none, some (some (some (.inl i))), h => exact absurd h (hs1 i)
    | none, some (some (some (.inr i))), h => exact absurd h (hs2 i)
    | some none, none, h => exact absurd h.symm h0
    | some none, some none, _ => rfl
    | some none, some (some none), h => exact absurd (show (0#32 : W32) = still from h) (by decide)
    | some none, some (some (some (.inl i))), h => exact absurd h.symm (hne i)
    | some none, some (some (some (.inr i))), h => exact absurd h.symm (hxz i)
    | some (some none), none, h => exact absurd h.symm h1
    | some (some none), some none, h => exact absurd (show still = (0#32 : W32) from h) (by decide)
    | some (some none), some (some none), _ => rfl
    | some (some none), some (some (some (.inl i))), h => exact absurd h.symm (hns i)
    | some (some none), some (some (some (.inr i))), h => exact absurd h.symm (hxs i)
    | some (some (some (.inl i))), none, h => exact absurd h.symm (hs1 i)
    | some (some (some (.inl i))), some none, h => exact absurd h (hne i)
    | some (some (some (.inl i))), some (some none), h => exact absurd h (hns i)
    | some (some (some (.inl i))), some (some (some (.inl j))), h => rw [hinj' i j h]
    | some (some (some (.inl i))), some (some (some (.inr j))), h => exact absurd h (hxx i j)
    | some (some (some (.inr i))), none, h => exact absurd h.symm (hs2 i)
    | some (some (some (.inr i))), some none, h => exact absurd h (hxz i)
    | some (some (some (.inr i))), some (some none), h => exact absurd h (hxs i)
    | some (some (some (.inr i))), some (some (some (.inl j))), h => exact absurd h.symm (hxx j i)
    | some (some (some (.inr i))), some (some (some (.inr j))), h => rw [hinj' i j (hx _ _ h)]
  let g : Option (Option (Option (Fin 2147483647 ⊕ Fin 2147483647))) → Fin 4294967296 := fun a => (g' a).toFin
  have hgg : Function.Injective g := fun a b h => hg (BitVec.toFin_inj.1 h)
  have := Fintype.card_le_of_injective g hgg
  simp only [Fintype.card_option, Fintype.card_sum, Fintype.card_fin] at this
  omega

theorem fixed32c (s : W32) (d : Nat) : shn revCrc32c d s = s ↔ s = 0#32 ∨ s = still ∨ 2147483647 ∣ d := by
  have hx : ∀ a b : W32, a ^^^ still = b ^^^ still ↔ a = b := by
    intro a b
    constructor
    · intro h
      have := congrArg (· ^^^ still) h
      simpa [BitVec.xor_assoc] using this
    · rintro rfl; rfl
  have key : ∀ j, shn revCrc32c d (shn revCrc32c j top) = shn revCrc32c j top ↔ 2147483647 ∣ d := by
    intro j
    rw [← shn_add, Nat.add_comm, shn_add]
    constructor
    · intro h
      exact (period32c d).1 (shn_inj (by decide) j h)
    · intro h
      rw [(period32c d).2 h]
  by_cases h0 : s = 0#32
  · subst h0
    exact ⟨fun _ => .inl rfl, fun _ => shn_zero _ _⟩
  · by_cases h1 : s = still
    · rw [h1]
      exact ⟨fun _ => .inr (.inl rfl), fun _ => still_shn _⟩
    · have e : shn revCrc32c d s = s ↔ 2147483647 ∣ d := by
        obtain ⟨j, rfl | rfl⟩ := powers32c s h0 h1
        · exact key j
        · rw [shn_xor, still_shn, hx]; exact key j
      rw [e]
      exact ⟨fun h => .inr (.inr h), fun h => h.elim (absurd · h0) fun h => h.elim (absurd · h1) id⟩

/-- Two messages have the same CRC exactly if their difference is a multiple of the generator. -/
theorem same_iff (p : W32) (hp : p.getLsbD 31 = true) (m n : List Byte) (hl : m.length = n.length) :
    crc p m = crc p n ↔ whole p ∣ bitPoly (bits m) + bitPoly (bits n) := by
  have hX : IsCoprime (whole p) ((X : (ZMod 2)[X]) ^ 32) := by
    apply IsCoprime.pow_right
    obtain ⟨r, hr⟩ : (X : (ZMod 2)[X]) ∣ whole p - Polynomial.C 1 := by
      rw [X_dvd_iff, coeff_sub, coeff_C_zero]
      unfold whole
      have : reg p = bitPoly ((List.range 31).map p.getLsbD) * X + co (p.getLsbD 31) := by
        unfold reg
        rw [List.range_succ, List.map_append, List.map_cons, List.map_nil, bitPoly_append_one]
      rw [this, hp]
      simp [co]
    refine ⟨1, -r, ?_⟩
    rw [Polynomial.C_1] at hr
    linear_combination hr
  unfold crc
  rw [BitVec.not_inj]
  generalize (0xffffffff : W32) = F
  obtain ⟨q1, h1⟩ := reg_feeds p (bits m) F
  obtain ⟨q2, h2⟩ := reg_feeds p (bits n) F
  rw [bits_length] at h1 h2
  rw [hl] at h1
  have e : (bitPoly (bits m) + bitPoly (bits n)) * X ^ 32 = reg ((bits m).foldl (feed p) F ^^^ (bits n).foldl (feed p) F) + (q1 + q2) * whole p := by
    rw [reg_xor]
    linear_combination h1 + h2 - (reg F * X ^ (8 * n.length)) * two_zero
  generalize (bits m).foldl (feed p) F = A at e ⊢
  generalize (bits n).foldl (feed p) F = B at e ⊢
  generalize bitPoly (bits m) + bitPoly (bits n) = D at e ⊢
  generalize (X : (ZMod 2)[X]) ^ 32 = Y at e hX
  constructor
  · intro h
    have h0 : reg (A ^^^ B) = 0 := by rw [h, BitVec.xor_self]; exact reg_nil
    rw [h0, zero_add] at e
    exact hX.dvd_of_dvd_mul_right (by rw [e]; exact dvd_mul_left _ _)
  · intro h
    have := dvd_mul_of_dvd_left h Y
    rw [e] at this
    have hd : whole p ∣ reg (A ^^^ B) := (dvd_add_left (dvd_mul_left (whole p) (q1 + q2))).1 this
    exact BitVec.xor_eq_zero_iff.1 (whole_dvd_reg p _ hd)

end Ulz.Crc

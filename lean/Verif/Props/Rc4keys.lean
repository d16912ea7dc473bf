import Verif.Proofs.Rc4keys
/-! C223: keys and key schedules of rc4. -/
namespace Ulz.Props
open Ulz.Rc4 Ulz.Rc4.Spec

/-- C223: the table that the key schedule makes of a key has every byte exactly once. -/
theorem rc4_box_distinct (key : List Byte) (hk : 0 < key.length) : ∃ box, initBox key = .ok box ∧ box.length = 256 ∧ box.Nodup := by
  obtain ⟨b, hb, hrep⟩ := initBox_rep key hk
  exact ⟨b, hb, hrep.1, rep_nodup hrep (ksa_bij key hk 256)⟩

/-- C223: every such table is made of some key of 256 bytes. -/
theorem rc4_box_any (box : List Byte) (hl : box.length = 256) (hn : box.Nodup) : ∃ key, key.length = 256 ∧ initBox key = .ok box := by
  obtain ⟨S, hr, hS⟩ := rep_of_nodup hl hn
  obtain ⟨key, hk, h1, h2⟩ := exists_key hS
  exact ⟨key, h1, (initBox_iff hk hr).2 h2⟩

example : ∃ key, key.length = 256 ∧ initBox key = .ok ((List.range 256).map (BitVec.ofNat 8)).reverse :=
  rc4_box_any _ (by simp) (by decide +kernel)

/-- C223: from 211 bytes on there are different keys of the same length that do the same to every message. -/
theorem rc4_keys_collide (L : Nat) (hL : 211 ≤ L) :
    ∃ k k' : List Byte, k.length = L ∧ k'.length = L ∧ k ≠ k' ∧ ∀ (dst src : List Byte) (n : Nat), rc4 dst src n k = rc4 dst src n k' := by
  have h0 : 0 < L := by omega
  have hcard : Fintype.card (Equiv.Perm Byte) < Fintype.card (Fin L → Byte) := by
    classical
    rw [Fintype.card_perm, Fintype.card_fun, card_byte, Fintype.card_fin]
    refine Nat.lt_of_lt_of_le (m := 256 ^ 211) ?_ (Nat.pow_le_pow_right (by decide) hL)
    decide +kernel
  obtain ⟨f, g, hne, he⟩ := Fintype.exists_ne_map_eq_of_card_lt (permOf L h0) hcard
  refine ⟨List.ofFn f, List.ofFn g, by simp, by simp, fun h => hne (List.ofFn_injective h), rc4_of_box ?_⟩
  obtain ⟨b, hb, hrep⟩ := initBox_rep (List.ofFn g) (by simpa using h0)
  rw [hb]
  refine (initBox_iff (by simpa using h0) hrep).2 ?_
  rw [← permOf_coe L h0 f, ← permOf_coe L h0 g, he]

example : ∃ k k' : List Byte, k.length = 256 ∧ k'.length = 256 ∧ k ≠ k' ∧ ∀ src : List Byte, rc4 src src src.length k = rc4 src src src.length k' := by
  obtain ⟨k, k', h1, h2, h3, h4⟩ := rc4_keys_collide 256 (by decide)
  exact ⟨k, k', h1, h2, h3, fun src => h4 src src _⟩

/-- C223: the tables are not equally likely: whatever the length of the keys, they do not all have the same number of keys. -/
theorem rc4_boxes_uneven (L : Nat) (hL : 0 < L) :
    ¬ ∃ m, ∀ box : List Byte, box.length = 256 → box.Nodup → {key : List Byte | key.length = L ∧ initBox key = .ok box}.ncard = m := by
  classical
  rintro ⟨m, hm⟩
  have hf : ∀ σ : Equiv.Perm Byte, (Finset.univ.filter (fun f : Fin L → Byte => permOf L hL f = σ)).card = m := by
    intro σ
    have hr : Rep ((List.range 256).map (fun n => σ (BitVec.ofNat 8 n))) σ := by
      refine ⟨by simp, fun k => ?_⟩
      have hk := k.isLt
      simp only [List.getElem?_map, List.getElem?_range hk, Option.map_some]
      simp
    rw [← hm _ hr.1 (rep_nodup hr σ.bijective), ← Set.ncard_coe_finset, ← Set.ncard_image_of_injective _ (List.ofFn_injective (n := L))]
    congr 1
    ext key
    simp only [Set.mem_image, Finset.mem_coe, Finset.mem_filter, Finset.mem_univ, true_and, Set.mem_ofPred_eq]
    constructor
    · rintro ⟨f, hf, rfl⟩
      refine ⟨by simp, (initBox_iff (by simpa using hL) hr).2 ?_⟩
      rw [← hf, permOf_coe]
    · rintro ⟨h1, h2⟩
      subst h1
      refine ⟨fun i => key[i], ?_, by simp⟩
      have e : List.ofFn (fun i : Fin key.length => key[i]) = key := by simp
      apply Equiv.coe_fn_injective
      beta_reduce
      rw [permOf_coe _ _ _ (by simpa using hL), ksa_congr e _ hL]
      exact (initBox_iff hL hr).1 h2
  have hsum := Finset.card_eq_sum_card_fiberwise (f := permOf L hL) (s := Finset.univ) (t := Finset.univ) (fun _ _ => Finset.mem_coe.2 (Finset.mem_univ _))
  simp only [hf, Finset.sum_const, Finset.card_univ, Fintype.card_perm, Fintype.card_fun, card_byte, Fintype.card_fin, smul_eq_mul] at hsum
  have h3 : 3 ∣ 256 ^ L := by
    rw [hsum]
    exact Dvd.dvd.mul_right (Nat.dvd_factorial (by decide) (by decide)) m
  have := Nat.Prime.dvd_of_dvd_pow (by decide : Nat.Prime 3) h3
  revert this
  decide

/-! Two keys of one byte with different tables. -/
example : initBox [0] ≠ initBox [1] := by decide +kernel

end Ulz.Props

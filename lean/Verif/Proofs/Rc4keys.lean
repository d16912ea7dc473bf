import Verif.Proofs.Rc4stream
import Mathlib.Data.Fintype.Perm
import Mathlib.Data.Fintype.Pigeonhole
import Mathlib.Data.Fintype.BigOperators
import Mathlib.Data.Set.Card
import Mathlib.Data.Nat.Prime.Basic
/-! Lemmas about the boxes that the key schedule of RC4 makes. -/
namespace Ulz.Rc4
open Ulz.Rc4.Spec

theorem swap_bij {S : Byte → Byte} (h : Function.Bijective S) (i j : Byte) : Function.Bijective (swap S i j) := by
  refine Finite.injective_iff_bijective.1 ?_
  intro a b hab
  unfold swap at hab
  have hi := h.1
  split_ifs at hab <;> have := hi hab <;> simp_all

theorem ksa_bij (key : List Byte) (hk : 0 < key.length) : ∀ n, Function.Bijective (ksa key hk n).1
  | 0 => Function.bijective_id
  | n + 1 => swap_bij (ksa_bij key hk n) _ _

/-- A list of 256 different bytes is the table of a bijection. -/
theorem rep_nodup {box : List Byte} {S : Byte → Byte} (h : Rep box S) (hS : Function.Bijective S) : box.Nodup := by
  rw [List.nodup_iff_injective_getElem]
  rintro ⟨a, ha⟩ ⟨b, hb⟩ hab
  have hl := h.1
  have e : ∀ n (hn : n < box.length), box[n] = S (BitVec.ofNat 8 n) := by
    intro n hn
    have := h.2 (BitVec.ofNat 8 n)
    rw [show (BitVec.ofNat 8 n).toNat = n by simp; omega, List.getElem?_eq_getElem hn] at this
    exact Option.some.inj this
  simp only at hab
  rw [e a ha, e b hb] at hab
  have := congrArg BitVec.toNat (hS.1 hab)
  rw [BitVec.toNat_ofNat, BitVec.toNat_ofNat] at this
  simp only [Fin.mk.injEq]
  omega

theorem rep_of_nodup {box : List Byte} (hl : box.length = 256) (hn : box.Nodup) : ∃ S, Rep box S ∧ Function.Bijective S := by
  refine ⟨fun k => box[k.toNat]'(by rw [hl]; exact k.isLt), ⟨hl, fun k => List.getElem?_eq_getElem _⟩, ?_⟩
  refine Finite.injective_iff_bijective.1 ?_
  intro a b hab
  have := (List.nodup_iff_injective_getElem.1 hn) (a₁ := ⟨a.toNat, by rw [hl]; exact a.isLt⟩) (a₂ := ⟨b.toNat, by rw [hl]; exact b.isLt⟩) hab
  exact BitVec.eq_of_toNat_eq (Fin.mk.inj this)

theorem rep_unique {box box' : List Byte} {S : Byte → Byte} (h : Rep box S) (h' : Rep box' S) : box = box' := by
  apply List.ext_getElem?
  intro n
  by_cases hn : n < 256
  · have e : (BitVec.ofNat 8 n).toNat = n := by simp; omega
    rw [← e, h.2, h'.2]
  · rw [List.getElem?_eq_none (by rw [h.1]; omega), List.getElem?_eq_none (by rw [h'.1]; omega)]

theorem rep_fun {box : List Byte} {S S' : Byte → Byte} (h : Rep box S) (h' : Rep box S') : S = S' := by
  funext k
  have := (h.2 k).symm.trans (h'.2 k)
  exact Option.some.inj this

/-- A key that leads to a permutation `π`: round `n` fetches the value for place `n`. -/
noncomputable def toward (π : Byte → Byte) : Nat → (Byte → Byte) × Byte
  | 0 => (id, 0)
  | n + 1 =>
    let (S, _) := toward π n
    let j := Function.invFun S (π (BitVec.ofNat 8 n))
    (swap S (BitVec.ofNat 8 n) j, j)

/-- Its bytes. -/
noncomputable def towardKey (π : Byte → Byte) (n : Nat) : Byte :=
  Function.invFun (toward π n).1 (π (BitVec.ofNat 8 n)) - (toward π n).2 - (toward π n).1 (BitVec.ofNat 8 n)

theorem toward_inv {π : Byte → Byte} (hπ : Function.Bijective π) : ∀ n ≤ 256,
    Function.Bijective (toward π n).1 ∧ ∀ k : Byte, k.toNat < n → (toward π n).1 k = π k
  | 0, _ => ⟨Function.bijective_id, fun k h => by omega⟩
  | n + 1, hn => by
    obtain ⟨h1, h2⟩ := toward_inv hπ n (by omega)
    refine ⟨swap_bij h1 _ _, fun k hk => ?_⟩
    have hj : (toward π n).1 (Function.invFun (toward π n).1 (π (BitVec.ofNat 8 n))) = π (BitVec.ofNat 8 n) :=
      Function.invFun_eq (h1.2 _)
    show swap (toward π n).1 (BitVec.ofNat 8 n) (Function.invFun (toward π n).1 (π (BitVec.ofNat 8 n))) k = π k
    generalize Function.invFun (toward π n).1 (π (BitVec.ofNat 8 n)) = j at *
    by_cases hkn : k = BitVec.ofNat 8 n
    · subst hkn
      rw [swap_left, hj]
    · have hkt : k.toNat ≠ n := fun e => hkn (by rw [← e]; simp)
      have hkj : k ≠ j := by
        rintro rfl
        rw [h2 k (by omega)] at hj
        exact hkn (hπ.1 hj)
      rw [swap_other _ hkn hkj]
      exact h2 k (by omega)

theorem ksa_toward (π : Byte → Byte) (key : List Byte) (hk : 0 < key.length) (hl : key.length = 256)
    (he : ∀ n (h : n < key.length), key[n] = towardKey π n) : ∀ n ≤ 256, ksa key hk n = toward π n
  | 0, _ => rfl
  | n + 1, hn => by
    have ih := ksa_toward π key hk hl he n (by omega)
    have hm : n % key.length = n := Nat.mod_eq_of_lt (by omega)
    have hb : key[n % key.length]'(Nat.mod_lt _ hk) = towardKey π n := by
      rw [← he n (by omega)]
      congr 1
    simp only [ksa, toward]
    rw [ih, hb]
    have : (toward π n).2 + (toward π n).1 (BitVec.ofNat 8 n) + towardKey π n = Function.invFun (toward π n).1 (π (BitVec.ofNat 8 n)) := by
      unfold towardKey
      generalize (toward π n).1 (BitVec.ofNat 8 n) = a
      generalize (toward π n).2 = b
      generalize Function.invFun (toward π n).1 (π (BitVec.ofNat 8 n)) = c
      bv_omega
    rw [this]

theorem exists_key {π : Byte → Byte} (hπ : Function.Bijective π) : ∃ (key : List Byte) (hk : 0 < key.length), key.length = 256 ∧ (ksa key hk 256).1 = π := by
  have hl : ((List.range 256).map (towardKey π)).length = 256 := by simp
  have hk : 0 < ((List.range 256).map (towardKey π)).length := by omega
  refine ⟨_, hk, hl, ?_⟩
  rw [ksa_toward π _ hk hl (fun n h => by simp) 256 (Nat.le_refl _)]
  funext k
  exact (toward_inv hπ 256 (Nat.le_refl _)).2 k k.isLt

noncomputable instance : Fintype Byte := Fintype.ofFinite _

theorem card_byte : Fintype.card Byte = 256 := by
  have e : Byte ≃ Fin (2 ^ 8) := ⟨BitVec.toFin, BitVec.ofFin, fun _ => rfl, fun _ => rfl⟩
  rw [Fintype.card_congr e, Fintype.card_fin]
  rfl

/-- The permutation that a key of `L` bytes leads to. -/
noncomputable def permOf (L : Nat) (hL : 0 < L) (f : Fin L → Byte) : Equiv.Perm Byte :=
  Equiv.ofBijective _ (ksa_bij (List.ofFn f) (by simpa using hL) 256)

theorem coe_ofBij {S : Byte → Byte} (h : Function.Bijective S) : ⇑(Equiv.ofBijective S h) = S := rfl

theorem permOf_coe (L : Nat) (hL : 0 < L) (f : Fin L → Byte) (h : 0 < (List.ofFn f).length) : ⇑(permOf L hL f) = (ksa (List.ofFn f) h 256).1 := by
  unfold permOf
  exact coe_ofBij _

theorem ksa_congr {k k' : List Byte} (h : k = k') (hk : 0 < k.length) (hk' : 0 < k'.length) (n : Nat) : ksa k hk n = ksa k' hk' n := by
  subst h
  rfl

theorem rc4_of_box {k k' : List Byte} (h : initBox k = initBox k') (dst src : List Byte) (n : Nat) : rc4 dst src n k = rc4 dst src n k' := by
  unfold rc4
  rw [h]

theorem initBox_iff {key box : List Byte} {S : Byte → Byte} (hk : 0 < key.length) (hr : Rep box S) :
    initBox key = .ok box ↔ (ksa key hk 256).1 = S := by
  obtain ⟨b, hb, hrep⟩ := initBox_rep key hk
  constructor
  · intro h
    rw [hb] at h
    cases h
    exact rep_fun hrep hr
  · rintro rfl
    rw [hb, rep_unique hrep hr]

end Ulz.Rc4

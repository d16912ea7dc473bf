import Verif.Proofs.Rc4cycle
/-! # C240: rc4 does not get into its short cycles -/
namespace Ulz.Props
open Rc4 Rc4.Spec

/-- **C240** A table with a 1 at index `z`, one after `y`, comes back with the same indices after every 65280 bytes, and at no
    other time: from there on the key stream repeats itself after 65280 bytes. -/
theorem rc4_short_cycle (box : List Byte) (y z : Nat) (hl : box.length = 256) (hn : box.Nodup) (hy : y < 256)
    (hz : z = (y + 1) % 256) (h1 : box[z]? = some 1) (n : Nat) : steps n box y z = .ok (box, y, z) ↔ 65280 ∣ n := by
  obtain ⟨S, hr, hS⟩ := rep_of_nodup hl hn
  have ey : (BitVec.ofNat 8 y).toNat = y := by simp; omega
  have ez : (BitVec.ofNat 8 y + 1 : Byte).toNat = z := by simp [BitVec.toNat_add]; omega
  have hS1 : S (BitVec.ofNat 8 y + 1) = 1 := by
    have := hr.2 (BitVec.ofNat 8 y + 1)
    rw [ez, h1] at this
    exact (Option.some.inj this).symm
  obtain ⟨b', e1, e2⟩ := steps_rep n box S (BitVec.ofNat 8 y) (BitVec.ofNat 8 y + 1) hr
  rw [ey, ez] at e1
  rw [← short_return S (BitVec.ofNat 8 y) hS1 hS.1 n, e1]
  constructor
  · intro h
    simp only [Except.ok.injEq, Prod.mk.injEq] at h
    obtain ⟨r1, r2, r3⟩ := h
    subst r1
    apply Prod.ext
    · exact rep_fun e2 hr
    · apply Prod.ext
      · exact BitVec.eq_of_toNat_eq (r2.trans ey.symm)
      · exact BitVec.eq_of_toNat_eq (r3.trans ez.symm)
  · intro h
    rw [h] at e2 ⊢
    simp only [ey, ez, rep_unique e2 hr]

example : ((List.range 256).map (BitVec.ofNat 8) : List Byte).Nodup ∧
    ((List.range 256).map (BitVec.ofNat 8) : List Byte)[1]? = some 1 := by decide +kernel

/-- **C240** No key gets there: whatever the key and however many bytes were converted, the table has no 1 at index `z`
    when `z` is one after `y`. -/
theorem rc4_never_short (key : List Byte) (hk : 0 < key.length) (n : Nat) :
    ∃ start box y z, initBox key = .ok start ∧ steps n start 0 0 = .ok (box, y, z) ∧ y = n % 256 ∧ z < 256 ∧
      ¬(z = (y + 1) % 256 ∧ box[z]? = some 1) := by
  obtain ⟨b0, i1, i2⟩ := initBox_rep key hk
  obtain ⟨b', e1, e2⟩ := steps_rep n b0 _ 0 0 i2
  have hy : ∀ (n : Nat) (s : State), (nextSt^[n] s).2.1 = s.2.1 + BitVec.ofNat 8 n := by
    intro n
    induction n with
    | zero => intro s; simp
    | succ n ih =>
      intro s
      rw [Function.iterate_succ_apply, ih]
      apply BitVec.eq_of_toNat_eq
      simp [nextSt, BitVec.toNat_add]
      omega
  refine ⟨b0, b', _, _, i1, e1, ?_, (BitVec.isLt _), ?_⟩
  · rw [hy]; simp
  · rintro ⟨h1, h2⟩
    apply not_short (ksa key hk 256).1 n
    refine ⟨?_, ?_⟩
    · apply BitVec.eq_of_toNat_eq
      rw [h1]
      simp [BitVec.toNat_add]
    · rw [e2.2] at h2
      exact Option.some.inj h2

example : ∃ start box y z, initBox [1, 2, 3] = .ok start ∧ steps 1000 start 0 0 = .ok (box, y, z) ∧ y = 232 ∧
    ¬(z = 233 ∧ box[z]? = some 1) := by
  obtain ⟨start, box, y, z, h1, h2, h3, _, h4⟩ := rc4_never_short [1, 2, 3] (by decide) 1000
  subst h3
  exact ⟨start, box, _, z, h1, h2, rfl, h4⟩

/-- The table after `n` bytes is the one that decides about the next byte of the output. -/
theorem rc4_next_byte (key : List Byte) (hk : 0 < key.length) (n : Nat) (d src : List Byte) (a : Byte) (hd : src.length ≤ d.length)
    (ha : src[n]? = some a) : ∃ start box y z box' y' z' k c, initBox key = .ok start ∧ steps n start 0 0 = .ok (box, y, z) ∧
      step box y z = .ok (box', y', z', k) ∧ rc4 d src src.length key = .ok c ∧ c[n]? = some (a ^^^ k) := by
  obtain ⟨b0, i1, i2⟩ := initBox_rep key hk
  obtain ⟨b', e1, e2⟩ := steps_rep n b0 _ 0 0 i2
  obtain ⟨b'', s1, s2⟩ := step_rep e2 (nextSt^[n] ((ksa key hk 256).1, 0, 0)).2.1 (nextSt^[n] ((ksa key hk 256).1, 0, 0)).2.2
  obtain ⟨hi, rfl⟩ := List.getElem?_eq_some_iff.1 ha
  refine ⟨b0, b', _, _, b'', _, _, _, _, i1, e1, s1, rc4_correct d src key hk hd, ?_⟩
  rw [out_get hk d src hi]
  have := ksAt_add n 0 ((ksa key hk 256).1, 0, 0)
  rw [Nat.zero_add] at this
  unfold ksKey
  rw [this]
  rfl

example : ∃ start box y z box' y' z' k c, initBox [7] = .ok start ∧ steps 1 start 0 0 = .ok (box, y, z) ∧
    step box y z = .ok (box', y', z', k) ∧ rc4 [0, 0] [5, 6] 2 [7] = .ok c ∧ c[1]? = some (6 ^^^ k) :=
  rc4_next_byte [7] (by decide) 1 [0, 0] [5, 6] 6 (by decide) rfl

end Ulz.Props

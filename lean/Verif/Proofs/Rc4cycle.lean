import Verif.Model.Rc4cycle
import Verif.Proofs.Rc4stream
import Verif.Proofs.Rc4keys
set_option linter.unusedSimpArgs false
set_option linter.unusedVariables false
namespace Ulz.Rc4
open Ulz.Rc4.Spec

theorem steps_rep : ∀ (n : Nat) (box : List Byte) (S : Byte → Byte) (i j : Byte), Rep box S →
    ∃ box', steps n box i.toNat j.toNat = .ok (box', (nextSt^[n] (S, i, j)).2.1.toNat, (nextSt^[n] (S, i, j)).2.2.toNat) ∧
      Rep box' (nextSt^[n] (S, i, j)).1
  | 0, box, S, i, j, h => ⟨box, rfl, h⟩
  | n + 1, box, S, i, j, h => by
    obtain ⟨b1, e1, h1⟩ := step_rep h i j
    obtain ⟨b2, e2, h2⟩ := steps_rep n b1 _ (i + 1) (j + S (i + 1)) h1
    refine ⟨b2, ?_, ?_⟩
    · unfold steps
      rw [e1]
      simp only [ok_bind]
      rw [e2]
      rfl
    · exact h2

/-- The states of the short cycles. -/
def Short (s : State) : Prop := s.2.2 = s.2.1 + 1 ∧ s.1 s.2.2 = 1

theorem short_back {s : State} (h : Short (nextSt s)) : Short s := by
  obtain ⟨S, i, j⟩ := s
  obtain ⟨h1, h2⟩ := h
  simp only [nextSt] at h1 h2
  rw [swap_right] at h2
  rw [h2] at h1
  have hj : j = i + 1 := by
    have := congrArg (· - 1) h1
    simpa using this
  exact ⟨hj, by simp only []; rw [hj]; exact h2⟩

theorem not_short (S : Byte → Byte) : ∀ n, ¬Short (nextSt^[n] (S, 0, 0))
  | 0, h => absurd (show (0 : Byte) = 0 + 1 from h.1) (by decide)
  | n + 1, h => by
    rw [Function.iterate_succ_apply'] at h
    exact not_short S n (short_back h)

/-- The invariant of a short cycle: 1 moves through the others, whose cyclic order stays. -/
theorem short_states (S : Byte → Byte) (i : Byte) (h1 : S (i + 1) = 1) : ∀ n : Nat,
    (nextSt^[n] (S, i, i + 1)).2 = (i + BitVec.ofNat 8 n, i + 1 + BitVec.ofNat 8 n) ∧
    (nextSt^[n] (S, i, i + 1)).1 (i + 1 + BitVec.ofNat 8 n) = 1 ∧
    ∀ m < 255, (nextSt^[n] (S, i, i + 1)).1 (i + 2 + BitVec.ofNat 8 (n + m)) = S (i + 2 + BitVec.ofNat 8 ((n + m) % 255))
  | 0 => by
    refine ⟨by simp, by simpa using h1, fun m hm => ?_⟩
    rw [Nat.zero_add, Nat.mod_eq_of_lt hm]
    rfl
  | n + 1 => by
    obtain ⟨e1, e2, e3⟩ := short_states S i h1 n
    rw [Function.iterate_succ_apply']
    generalize nextSt^[n] (S, i, i + 1) = s at e1 e2 e3
    obtain ⟨T, a, b⟩ := s
    simp only [Prod.mk.injEq] at e1
    obtain ⟨rfl, rfl⟩ := e1
    simp only [] at e2 e3
    have p1 : i + BitVec.ofNat 8 n + 1 = i + 1 + BitVec.ofNat 8 n := by
      apply BitVec.eq_of_toNat_eq; simp [BitVec.toNat_add]; omega
    have p2 : i + 1 + BitVec.ofNat 8 n + 1 = i + 2 + BitVec.ofNat 8 n := by
      apply BitVec.eq_of_toNat_eq; simp [BitVec.toNat_add]; omega
    have p3 : i + 1 + BitVec.ofNat 8 (n + 1) = i + 2 + BitVec.ofNat 8 n := by
      apply BitVec.eq_of_toNat_eq; simp [BitVec.toNat_add]; omega
    have p4 : i + BitVec.ofNat 8 (n + 1) = i + 1 + BitVec.ofNat 8 n := by
      apply BitVec.eq_of_toNat_eq; simp [BitVec.toNat_add]; omega
    simp only [nextSt]
    rw [p1, e2, p2, p3, p4]
    refine ⟨rfl, ?_, fun m hm => ?_⟩
    · rw [swap_right, e2]
    · by_cases hm4 : m = 254
      · subst hm4
        have p5 : i + 2 + BitVec.ofNat 8 (n + 1 + 254) = i + 1 + BitVec.ofNat 8 n := by
          apply BitVec.eq_of_toNat_eq; simp [BitVec.toNat_add]; omega
        rw [p5, swap_left]
        have := e3 0 (by omega)
        simp only [Nat.add_zero] at this
        rw [this, show (n + 1 + 254) % 255 = n % 255 by omega]
      · rw [swap_other]
        · rw [show n + 1 + m = n + (m + 1) by omega]
          exact e3 (m + 1) (by omega)
        · intro h
          have := congrArg BitVec.toNat h
          simp [BitVec.toNat_add] at this
          omega
        · intro h
          have := congrArg BitVec.toNat h
          simp [BitVec.toNat_add] at this
          omega

theorem byte_cases (i k : Byte) : k = i + 1 ∨ ∃ m < 255, k = i + 2 + BitVec.ofNat 8 m := by
  by_cases h : k = i + 1
  · exact .inl h
  · right
    refine ⟨(k - (i + 2)).toNat, ?_, ?_⟩
    · have hk := k.isLt
      have hi := i.isLt
      have h' : k.toNat ≠ (i.toNat + 1) % 256 := fun e => h (BitVec.eq_of_toNat_eq (by simpa [BitVec.toNat_add] using e))
      simp [BitVec.toNat_sub, BitVec.toNat_add]
      omega
    · apply BitVec.eq_of_toNat_eq
      have hk := k.isLt
      have hi := i.isLt
      simp [BitVec.toNat_sub, BitVec.toNat_add]
      omega

theorem short_return (S : Byte → Byte) (i : Byte) (h1 : S (i + 1) = 1) (hS : Function.Injective S) (n : Nat) :
    nextSt^[n] (S, i, i + 1) = (S, i, i + 1) ↔ 65280 ∣ n := by
  obtain ⟨e1, e2, e3⟩ := short_states S i h1 n
  constructor
  · intro h
    rw [h] at e1 e3
    simp only [Prod.mk.injEq] at e1 e3
    have a1 := congrArg BitVec.toNat e1.1
    have hi := i.isLt
    simp [BitVec.toNat_add] at a1
    have a2 := congrArg BitVec.toNat (hS (e3 0 (by omega)))
    simp [BitVec.toNat_add] at a2
    have b1 : n % 256 = 0 := by omega
    have b2 : n % 255 = 0 := by omega
    omega
  · intro h
    have b1 : n % 256 = 0 := by omega
    have b2 : n % 255 = 0 := by omega
    have z : BitVec.ofNat 8 n = 0 := by apply BitVec.eq_of_toNat_eq; simp; omega
    rw [z] at e1 e2
    apply Prod.ext
    · funext k
      rcases byte_cases i k with rfl | ⟨m, hm, rfl⟩
      · rw [show i + 1 + 0 = i + 1 from BitVec.add_zero _] at e2
        exact e2.trans h1.symm
      · have := e3 m hm
        rw [show (n + m) % 255 = m by omega] at this
        have q : BitVec.ofNat 8 (n + m) = BitVec.ofNat 8 m := by apply BitVec.eq_of_toNat_eq; simp; omega
        rw [q] at this
        exact this
    · rw [e1]; simp

end Ulz.Rc4

import Verif.Model.Coproc
import Verif.Proofs.Dialog
/-! Lemmas for C225. -/
namespace Ulz.Coproc
open Ulz.Dialog Ulz.Dialog.Spec

theorem answers_succ (ans : Nat → List Byte) (k : Nat) : answers ans (k + 1) = answers ans k ++ ans k := by
  unfold answers
  rw [List.range_succ]
  simp

theorem answers_le (ans : Nat → List Byte) {j k : Nat} (h : j ≤ k) : (answers ans j).length ≤ (answers ans k).length := by
  induction h with
  | refl => exact Nat.le_refl _
  | step _ ih => rw [answers_succ, List.length_append]; omega

theorem answers_prefix (ans : Nat → List Byte) {j k : Nat} (h : j ≤ k) : answers ans j <+: answers ans k := by
  induction h with
  | refl => exact List.prefix_refl _
  | step _ ih => rw [answers_succ]; exact ih.trans (List.prefix_append _ _)

/-- What holds in every reachable state. -/
structure Inv (K : Kind) (ans : Nat → List Byte) (s : Sys) : Prop where
  text : s.got ++ s.out ++ s.held = answers ans s.served
  le1 : s.served ≤ s.asked
  le2 : s.asked ≤ K.n
  due : s.due ≤ s.held.length
  full : K.flush = false → (s.got.length + s.out.length + s.due = (answers ans s.served).length / K.size * K.size ∨
    (K.closes = true ∧ s.asked = K.n ∧ s.served = K.n ∧ s.due = s.held.length))
  all : K.flush = true → s.due = s.held.length

theorem Inv.len {K ans s} (h : Inv K ans s) : s.got.length + s.out.length + s.held.length = (answers ans s.served).length := by
  rw [← h.text]; simp only [List.length_append]

theorem inv_start (K : Kind) (ans : Nat → List Byte) : Inv K ans start :=
  ⟨rfl, Nat.le_refl _, Nat.zero_le _, Nat.le_refl _, fun _ => .inl (by simp [start, answers]), fun _ => rfl⟩

theorem inv_step {K : Kind} (hB : 0 < K.size) {ans : Nat → List Byte} (s t : Sys) (hi : Inv K ans s) (h : Step K ans s t) : Inv K ans t := by
  have hl := hi.len
  cases h with
  | ask h1 h2 =>
    refine ⟨hi.text, Nat.le_succ_of_le hi.le1, h1, hi.due, fun hf => ?_, hi.all⟩
    rcases hi.full hf with h | ⟨_, h, _⟩
    · exact .inl h
    · simp only at h; omega
  | @serve a s h o g h1 =>
    have ht : g ++ o ++ h = answers ans s := hi.text
    refine ⟨by simp only; rw [answers_succ, ← ht]; simp, h1, hi.le2, ?_, fun hf => ?_, fun hf => by simp [hf]⟩
    · simp only
      split
      · exact Nat.le_refl _
      · exact Nat.div_mul_le_self _ _
    · left
      simp only [hf, Bool.false_eq_true, if_false]
      rcases hi.full hf with h2 | ⟨_, h2, h3, _⟩
      · simp only at h2 hl
        rw [answers_succ]
        simp only [List.length_append]
        rw [← hl]
        generalize g.length + o.length = w at *
        have e : w = (w / K.size) * K.size := by
          have : w = (answers ans s).length / K.size * K.size := by omega
          rw [this, Nat.mul_div_cancel _ hB]
        generalize w / K.size = q at e
        rw [e, show q * K.size + h.length + (ans s).length = (h.length + (ans s).length) + q * K.size by omega, Nat.add_mul_div_right _ _ hB, Nat.add_mul]
        omega
      · simp only at h2 h3; omega
  | eof h1 h2 =>
    exact ⟨hi.text, hi.le1, hi.le2, Nat.le_refl _, fun _ => .inr ⟨h1, rfl, rfl, rfl⟩, fun _ => rfl⟩
  | @give a s x h d o g h1 =>
    have ht : g ++ o ++ x :: h = answers ans s := hi.text
    have hd : d + 1 ≤ h.length + 1 := hi.due
    refine ⟨by simp only; rw [← ht]; simp, hi.le1, hi.le2, by simp only; omega, fun hf => ?_, fun hf => ?_⟩
    · rcases hi.full hf with h | ⟨h1, h2, h3, h4⟩
      · left; simp only [List.length_append, List.length_cons, List.length_nil] at *; omega
      · right; exact ⟨h1, h2, h3, by simp only [List.length_cons] at *; omega⟩
    · have := hi.all hf; simp only [List.length_cons] at *; omega
  | @read a s h d x o g =>
    have ht : g ++ x :: o ++ h = answers ans s := hi.text
    refine ⟨by simp only; rw [← ht]; simp, hi.le1, hi.le2, hi.due, fun hf => ?_, hi.all⟩
    rcases hi.full hf with h | h
    · left; simp only [List.length_append, List.length_cons, List.length_nil] at *; omega
    · exact .inr h

theorem reach_inv {K : Kind} (hB : 0 < K.size) {ans : Nat → List Byte} {s : Sys} (h : Reach (Step K ans) start s) : Inv K ans s :=
  Reach.inv (Inv K ans) (fun s t => inv_step hB s t) h (inv_start K ans)

/-- Decreases with every step. -/
def weight (K : Kind) (ans : Nat → List Byte) (s : Sys) : Nat :=
  2 * (2 * K.n - s.asked - s.served) + ((answers ans K.n).length - s.got.length - s.out.length) + ((answers ans K.n).length - s.got.length) +
    (if s.due < s.held.length then 1 else 0)

theorem weight_step {K : Kind} {ans : Nat → List Byte} (s t : Sys) (hi : Inv K ans s) (h : Step K ans s t) : weight K ans t < weight K ans s := by
  have hl := hi.len
  have hle := answers_le ans (Nat.le_trans hi.le1 hi.le2)
  have l1 := hi.le1
  have l2 := hi.le2
  cases h with
  | ask h1 h2 => simp only [weight] at *; omega
  | serve h1 =>
    simp only [weight] at *
    split <;> split <;> omega
  | eof h1 h2 =>
    have := List.length_pos_iff.2 h2
    simp only [weight] at *
    rw [if_pos this, if_neg (by omega)]
    omega
  | give h1 =>
    simp only [weight, List.length_append, List.length_cons, List.length_nil] at *
    split <;> split <;> omega
  | read =>
    simp only [weight, List.length_append, List.length_cons, List.length_nil] at *
    omega

theorem run_bound {K : Kind} (hB : 0 < K.size) {ans : Nat → List Byte} {n : Nat} {t : Sys} (h : Run (Step K ans) start n t) :
    n + weight K ans t ≤ weight K ans start ∧ Inv K ans t := by
  induction h with
  | nil => exact ⟨by omega, inv_start K ans⟩
  | snoc _ hs ih =>
    have := weight_step _ _ ih.2 hs
    exact ⟨by omega, inv_step hB _ _ ih.2 hs⟩

/-- The answers after which the caller waits for something that the process does not write by itself. -/
def Fits (K : Kind) (ans : Nat → List Byte) : Prop :=
  K.flush = true ∨ ∀ i < K.n, (i + 1 = K.n ∧ K.closes = true) ∨ K.size ∣ (ans i).length

theorem fits_dvd {K : Kind} {ans : Nat → List Byte} (h : ∀ i < K.n, (i + 1 = K.n ∧ K.closes = true) ∨ K.size ∣ (ans i).length) :
    ∀ k, k ≤ K.n → (k < K.n ∨ K.closes = false) → K.size ∣ (answers ans k).length
  | 0, _, _ => by simp [answers]
  | k + 1, hk, hc => by
    rw [answers_succ, List.length_append]
    refine Nat.dvd_add (fits_dvd h k (by omega) (by omega)) ?_
    rcases h k (by omega) with ⟨h1, h2⟩ | h1
    · rcases hc with hc | hc
      · omega
      · rw [h2] at hc; cases hc
    · exact h1

/-- Where it fits, nobody waits before the end. -/
theorem progress {K : Kind} (hB : 0 < K.size) (hp : 0 < K.pipe) {ans : Nat → List Byte} (hfit : Fits K ans) (s : Sys) (hi : Inv K ans s) (hs : Stuck (Step K ans) s) :
    Done K ans s := by
  obtain ⟨a, v, h, d, o, g⟩ := s
  have hl := hi.len
  have ho : o = [] := by
    cases o with
    | nil => rfl
    | cons x o => exact absurd Step.read (hs _)
  subst ho
  have hd : d = 0 := by
    cases d with
    | zero => rfl
    | succ d =>
      cases h with
      | nil => have := hi.due; simp at this
      | cons x h => exact absurd (Step.give (by simpa using hp)) (hs _)
  subst hd
  have hv : v = a := by
    rcases Nat.lt_or_ge v a with hlt | hge
    · exact absurd (Step.serve hlt) (hs _)
    · have := hi.le1; simp only at this; omega
  subst hv
  have hheld : h = [] := by
    cases hf : K.flush with
    | true => have := hi.all hf; simp only at this; exact List.length_eq_zero_iff.1 this.symm
    | false =>
      rcases hfit with h1 | h1
      · rw [hf] at h1; cases h1
      · rcases hi.full hf with h2 | ⟨_, _, _, h2⟩
        · by_cases hc : v < K.n ∨ K.closes = false
          · obtain ⟨q, hq⟩ := fits_dvd h1 v hi.le2 hc
            simp only [List.length_nil] at h2 hl
            rw [hq, Nat.mul_div_cancel_left _ hB, Nat.mul_comm] at h2
            exact List.length_eq_zero_iff.1 (by omega)
          · have hle := hi.le2
            simp only at hle
            have e : v = K.n := by omega
            have hcl : K.closes = true := by
              cases hk : K.closes with
              | true => rfl
              | false => exact absurd (.inr hk) hc
            subst e
            apply Decidable.byContradiction
            intro hne
            exact absurd (Step.eof hcl hne) (hs _)
        · simp only at h2; exact List.length_eq_zero_iff.1 h2.symm
  subst hheld
  simp only [List.length_nil, Nat.add_zero] at hl
  have hle := hi.le2
  simp only at hle
  rcases Nat.lt_or_ge v K.n with hlt | hge
  · exact absurd (Step.ask hlt hl) (hs _)
  · have e : v = K.n := by omega
    exact ⟨e, by simp only; rw [hl, e]⟩

/-- Where an answer is held back, no more questions are asked. -/
theorem blocked {K : Kind} (hB : 0 < K.size) {ans : Nat → List Byte} (hf : K.flush = false) {i : Nat} (hi : i < K.n) (hlast : ¬ (i + 1 = K.n ∧ K.closes = true))
    (hnd : ¬ K.size ∣ (ans i).length) (hmin : ∀ j < i, K.size ∣ (ans j).length) {s : Sys} (h : Reach (Step K ans) start s) :
    s.asked ≤ i + 1 ∧ s.got.length < (answers ans (i + 1)).length := by
  have hT : ∀ j ≤ i, K.size ∣ (answers ans j).length := by
    intro j
    induction j with
    | zero => intro _; simp [answers]
    | succ j ih => intro hj; rw [answers_succ, List.length_append]; exact Nat.dvd_add (ih (by omega)) (hmin j (by omega))
  have hlt : (answers ans (i + 1)).length / K.size * K.size < (answers ans (i + 1)).length := by
    refine Nat.lt_of_le_of_ne (Nat.div_mul_le_self _ _) fun e => hnd ?_
    have hd : K.size ∣ (answers ans (i + 1)).length := ⟨(answers ans (i + 1)).length / K.size, by rw [Nat.mul_comm]; exact e.symm⟩
    rw [answers_succ, List.length_append] at hd
    exact (Nat.dvd_add_right (hT i (Nat.le_refl _))).1 hd
  have key : ∀ s : Sys, Inv K ans s → s.asked ≤ i + 1 → s.got.length < (answers ans (i + 1)).length := by
    intro s hs ha
    have hle := answers_le ans (Nat.le_trans hs.le1 ha)
    have hm : (answers ans s.served).length / K.size * K.size ≤ (answers ans (i + 1)).length / K.size * K.size :=
      Nat.mul_le_mul_right _ (Nat.div_le_div_right hle)
    rcases hs.full hf with h2 | ⟨h2, h3, _⟩
    · omega
    · exact absurd ⟨by omega, h2⟩ hlast
  obtain ⟨n, hr⟩ := h
  induction hr with
  | nil => exact ⟨Nat.zero_le _, key start (inv_start K ans) (Nat.zero_le _)⟩
  | snoc hr hs ih =>
    have hinv := (run_bound hB hr).2
    have hinv' := inv_step hB _ _ hinv hs
    obtain ⟨h1, h2⟩ := ih
    rename_i s1 s2
    have ha : s2.asked ≤ i + 1 := by
      cases hs with
      | @ask a s h d o g e1 e2 =>
        simp only at *
        rcases Nat.lt_or_ge a (i + 1) with hh | hh
        · omega
        · have : a = i + 1 := by omega
          rw [this] at e2; omega
      | serve => exact h1
      | eof => exact h1
      | give => exact h1
      | read => exact h1
    exact ⟨ha, key _ hinv' ha⟩

end Ulz.Coproc

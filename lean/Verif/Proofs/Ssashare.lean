import Verif.Spec.Ssashare
import Verif.Proofs.Ssalloc
/-! Lemmas about threads that share the single size allocator. -/
namespace Ulz.Ssashare
open Ulz.Bitarray Ulz.Ssalloc Ulz.Ssalloc.Spec Ulz.Ssashare.Spec

/-! ### The rest of a call, undisturbed -/

/-- From the loop in `ssa_free` on. -/
def down (p : Pool) : C (Pool × Option Nat) := do pure ({ p with top := ← shrink p.used p.top }, none)

/-- From the store of a byte on. -/
def fin (E : Nat) (p : Pool) (i : Nat) : C (Pool × Option Nat) :=
  pure ({ p with avail := sztSub p.avail 1 }, some (ssa_getaddr E i))

def afterByte (E : Nat) (p : Pool) : Option Nat → C (Pool × Option Nat)
  | some i => ssa_set E p i
  | none => pure (p, none)

/-- What the rest of the call does if nobody interferes. -/
def rest (M E : Nat) (o : Op) (p : Pool) : Pc → C (Pool × Option Nat)
  | .idle => do
    match ← micro M E o p .idle with
    | (p, .inr r) => pure (p, r)
    | (p, .inl .inc) => ssa_set E { p with top := szt (p.top + 1) } (sztSub (szt (p.top + 1)) 1)
    | (p, .inl .avail) =>
      if p.avail ≠ 0 then do afterByte E p (← findByte M p (M / 8 + 1) 0) else pure (p, none)
    | (p, .inl (.fclr i)) => do
      let u ← BA_SET_FALSE p.used i
      down { p with used := u, avail := szt (p.avail + 1) }
    | _ => .error .hang
  | .inc => ssa_set E { p with top := szt (p.top + 1) } (sztSub (szt (p.top + 1)) 1)
  | .bump v => ssa_set E { p with top := szt (v + 1) } (sztSub (szt (v + 1)) 1)
  | .pick => ssa_set E p (sztSub p.top 1)
  | .set i => ssa_set E p i
  | .mark i v => do fin E { p with used := ← wr p.used (i / 8) (v ||| (1#8 <<< (i % 8))) } i
  | .take i => fin E p i
  | .took i v => pure ({ p with avail := sztSub v 1 }, some (ssa_getaddr E i))
  | .avail => if p.avail ≠ 0 then do afterByte E p (← findByte M p (M / 8 + 1) 0) else pure (p, none)
  | .byte b => do afterByte E p (← findByte M p (M / 8 - b + 1) b)
  | .bit b i => do
    match ← findBit p (8 * (b + 1) - i + 1) i (8 * (b + 1)) with
    | some i => ssa_set E p i
    | none => do afterByte E p (← findByte M p (M / 8 - (b + 1) + 1) (b + 1))
  | .fclr i => do
    let u ← BA_SET_FALSE p.used i
    down { p with used := u, avail := szt (p.avail + 1) }
  | .fmark i v => do
    let u ← wr p.used (i / 8) (v &&& ~~~(1#8 <<< (i % 8)))
    down { p with used := u, avail := szt (p.avail + 1) }
  | .fgive => down { p with avail := szt (p.avail + 1) }
  | .fgave v => down { p with avail := szt (v + 1) }
  | .ftop => down p
  | .flast => do if ← BA_GET p.used (sztSub p.top 1) then pure (p, none) else down { p with top := sztSub p.top 1 }
  | .fbit j => do if ← BA_GET p.used j then pure (p, none) else down { p with top := sztSub p.top 1 }
  | .fdec => down { p with top := sztSub p.top 1 }
  | .fdown v => down { p with top := sztSub v 1 }

/-- After a step. -/
def after (M E : Nat) (o : Op) : Pool × (Pc ⊕ Option Nat) → C (Pool × Option Nat)
  | (p, .inl pc) => rest M E o p pc
  | (p, .inr r) => pure (p, r)

theorem findByte_out {M : Nat} {p : Pool} {f b : Nat} (h : ¬b < M / 8) : findByte M p (f + 1) b = .ok none := by
  unfold findByte; rw [if_neg h]; rfl

theorem micro_rest (M E : Nat) (o : Op) (p : Pool) (pc : Pc) (hw : p.top < 2^64)  :
    rest M E o p pc = micro M E o p pc >>= after M E o := by
  cases pc with
  | idle =>
    simp only [rest, micro]
    cases o with
    | alloc size =>
      simp only []
      split
      · rfl
      · split <;> rfl
    | free d =>
      simp only []
      split
      · rfl
      · cases getIdx p.used (ssa_getidx E d) with
        | error e => rfl
        | ok b => cases b <;> rfl
  | inc => rfl
  | bump v => rfl
  | pick => rfl
  | set i =>
    simp only [rest, micro, ssa_set, BA_SET_TRUE]
    cases hr : rd p.used (i / 8) with
    | error e => rfl
    | ok v =>
      simp only [ok_bindE, pure_eq_ok, after, rest, fin]
  | mark i v =>
    simp only [rest, micro]
    cases wr p.used (i / 8) (v ||| 1#8 <<< (i % 8)) <;> rfl
  | take i => rfl
  | took i v => rfl
  | avail =>
    simp only [rest, micro]
    split <;> rfl
  | byte b =>
    simp only [rest, micro]
    by_cases h : b < M / 8
    · rw [if_pos h]
      conv => lhs; unfold findByte
      rw [if_pos h]
      cases hr : rd p.used b with
      | error e => rfl
      | ok v =>
        simp only [ok_bindE]
        by_cases hv : v ≠ 255
        · rw [if_pos hv, if_pos hv]
          simp only [ok_bindE, pure_eq_ok, after, rest]
          rw [show 8 * (b + 1) - 8 * b + 1 = 9 by omega, show M / 8 - (b + 1) + 1 = M / 8 - b by omega]
          cases findBit p 9 (8 * b) (8 * (b + 1)) with
          | error e => rfl
          | ok x => cases x <;> rfl
        · rw [if_neg hv, if_neg hv]
          simp only [ok_bindE, pure_eq_ok, after, rest]
          rw [show M / 8 - (b + 1) + 1 = M / 8 - b by omega]
    · rw [if_neg h, findByte_out h]
      rfl
  | bit b i =>
    simp only [rest, micro]
    by_cases h : i < 8 * (b + 1)
    · rw [if_pos h]
      conv => lhs; unfold findBit
      rw [if_pos h]
      cases hr : BA_GET p.used i with
      | error e => rfl
      | ok v =>
        simp only [ok_bindE]
        cases v with
        | true =>
          simp only [if_true, ok_bindE, pure_eq_ok, after, rest]
          rw [show 8 * (b + 1) - (i + 1) + 1 = 8 * (b + 1) - i by omega]
        | false => rfl
    · rw [if_neg h]
      conv => lhs; unfold findBit
      rw [if_neg h]
      rfl
  | fclr i =>
    simp only [rest, micro, BA_SET_FALSE]
    cases hr : rd p.used (i / 8) with
    | error e => rfl
    | ok v => rfl
  | fmark i v =>
    simp only [rest, micro]
    cases wr p.used (i / 8) (v &&& ~~~(1#8 <<< (i % 8))) <;> rfl
  | fgive => rfl
  | fgave v => rfl
  | ftop =>
    simp only [rest, micro]
    by_cases h : p.top ≠ 0
    · rw [if_pos h]
      simp only [ok_bindE, pure_eq_ok, after, rest]
      rw [sztSub_of_le (by omega) hw]
      obtain ⟨n, hn⟩ : ∃ n, p.top = n + 1 := ⟨p.top - 1, by omega⟩
      unfold down
      rw [hn]
      conv => lhs; unfold shrink
      simp only [Nat.add_sub_cancel]
      cases BA_GET p.used n with
      | error e => rfl
      | ok v =>
        cases v with
        | true => simp only [ok_bindE, if_true, pure_eq_ok]; rw [← hn]
        | false => rfl
    · rw [if_neg h]
      have h0 : p.top = 0 := by omega
      unfold down
      rw [h0]
      simp only [shrink, ok_bindE, pure_eq_ok, after]
      rw [← h0]
  | flast => rfl
  | fbit j =>
    simp only [rest, micro]
    cases BA_GET p.used j with
    | error e => rfl
    | ok v => cases v <;> rfl
  | fdec => simp only [rest, micro, pure_eq_ok, ok_bindE, after]
  | fdown v => simp only [rest, micro, pure_eq_ok, ok_bindE, after]

/-- The call, undisturbed, is the call of the sequential model. -/
theorem rest_idle {M E : Nat} {o : Op} {p : Pool} {live : List Nat} (h : Inv M p live) : rest M E o p .idle = Ssalloc.step M E p o := by
  have hs := h.small
  have ht := h.top
  simp only [rest, micro]
  cases o with
  | alloc size =>
    simp only [Ssalloc.step, ssa_alloc]
    split
    · rfl
    · split
      · simp only [pure_eq_ok, ok_bindE]
        rw [szt_of_lt (by omega), sztSub_of_le (by omega) (by omega), Nat.add_sub_cancel]
      · simp only [pure_eq_ok, ok_bindE]
        split
        · cases findByte M p (M / 8 + 1) 0 with
          | error e => rfl
          | ok x => cases x <;> rfl
        · rfl
  | free d =>
    simp only [Ssalloc.step, ssa_free]
    split
    · rfl
    · cases hg : getIdx p.used (ssa_getidx E d) with
      | error e => rfl
      | ok b =>
        cases b with
        | false => rfl
        | true =>
          simp only [ok_bindE, if_true, pure_eq_ok]
          have hlive : 0 < live.length := by
            unfold getIdx at hg
            split at hg
            · cases hg
            · rename_i hlt hneg
              have hi : (ssa_getidx E d).toNat < M := by omega
              rw [get_spec (size_ok h.len hi)] at hg
              exact List.length_pos_of_mem ((h.bits _).1 (Except.ok.inj hg))
          rw [szt_of_lt (by have := h.avail; omega)]
          cases BA_SET_FALSE p.used (ssa_getidx E d).toNat with
          | error e => rfl
          | ok u =>
            simp only [ok_bindE, down]
            cases shrink u p.top <;> rfl

/-! ### Calls end -/

/-- What holds while a thread is undisturbed. -/
def Good (p : Pool) : Pc → Prop
  | .flast | .fbit _ | .fdec => p.top < 2^64 ∧ 0 < p.top
  | .fdown v => p.top < 2^64 ∧ 0 < v ∧ v < 2^64
  | _ => p.top < 2^64

theorem Good.top {p : Pool} {pc : Pc} (h : Good p pc) : p.top < 2^64 := by
  cases pc <;> first | exact h | exact h.1

/-- How much is left. -/
def mu (M : Nat) (p : Pool) : Pc → Nat
  | .idle => 100 + 20 * (M / 8) + 5 * p.top
  | .inc => 7
  | .bump _ => 6
  | .pick => 5
  | .set _ => 4
  | .mark _ _ => 3
  | .take _ => 2
  | .took _ _ => 1
  | .avail => 6 + 20 * (M / 8)
  | .byte b => 5 + 20 * (M / 8 - b)
  | .bit b i => 6 + 20 * (M / 8 - b - 1) + (8 * (b + 1) - i)
  | .fclr _ => 9 + 5 * p.top
  | .fmark _ _ => 8 + 5 * p.top
  | .fgive => 7 + 5 * p.top
  | .fgave _ => 6 + 5 * p.top
  | .ftop => 5 + 5 * p.top
  | .flast => 4 + 5 * p.top
  | .fbit _ => 3 + 5 * p.top
  | .fdec => 2 + 5 * p.top
  | .fdown v => 1 + 5 * v

theorem micro_good {M E : Nat} {o : Op} {p p' : Pool} {pc pc' : Pc} (h : Good p pc) (hm : micro M E o p pc = .ok (p', .inl pc')) :
    Good p' pc' ∧ mu M p' pc' < mu M p pc ∧ pc' ≠ .idle := by
  have hsz : ∀ n, szt n < 2^64 := fun n => Nat.mod_lt _ (by omega)
  cases pc with
  | idle =>
    simp only [micro] at hm
    cases o with
    | alloc size =>
      simp only [pure_eq_ok] at hm
      split at hm
      · simp at hm
      · split at hm <;> (simp only [Except.ok.injEq, Prod.mk.injEq, Sum.inl.injEq] at hm; obtain ⟨rfl, rfl⟩ := hm
                         refine ⟨h, ?_, by simp⟩; simp only [mu]; omega)
    | free d =>
      simp only [pure_eq_ok] at hm
      split at hm
      · simp at hm
      · cases hg : getIdx p.used (ssa_getidx E d) with
        | error e => rw [hg] at hm; simp [error_bind] at hm
        | ok b =>
          rw [hg] at hm
          cases b with
          | false => simp [ok_bindE] at hm
          | true =>
            simp only [ok_bindE, if_true, Except.ok.injEq, Prod.mk.injEq, Sum.inl.injEq] at hm
            obtain ⟨rfl, rfl⟩ := hm
            refine ⟨h, ?_, by simp⟩; simp only [mu]; omega
  | inc | bump v | pick | take i | fgive | fgave v | flast | fdec =>
    simp only [micro, pure_eq_ok, Except.ok.injEq, Prod.mk.injEq, Sum.inl.injEq] at hm
    obtain ⟨rfl, rfl⟩ := hm
    refine ⟨?_, by simp only [mu]; omega, by simp⟩
    first | exact h | exact hsz _ | exact ⟨h.1, h.2, h.1⟩
  | took i v => simp [micro, pure_eq_ok] at hm
  | set i | fclr i =>
    simp only [micro] at hm
    cases hr : rd p.used (i / 8) with
    | error e => rw [hr] at hm; simp [error_bind] at hm
    | ok v =>
      rw [hr] at hm
      simp only [ok_bindE, pure_eq_ok, Except.ok.injEq, Prod.mk.injEq, Sum.inl.injEq] at hm
      obtain ⟨rfl, rfl⟩ := hm
      exact ⟨h, by simp only [mu]; omega, by simp⟩
  | mark i v =>
    simp only [micro] at hm
    cases hr : wr p.used (i / 8) (v ||| 1#8 <<< (i % 8)) with
    | error e => rw [hr] at hm; simp [error_bind] at hm
    | ok v =>
      rw [hr] at hm
      simp only [ok_bindE, pure_eq_ok, Except.ok.injEq, Prod.mk.injEq, Sum.inl.injEq] at hm
      obtain ⟨rfl, rfl⟩ := hm
      exact ⟨h, by simp only [mu]; omega, by simp⟩
  | fmark i v =>
    simp only [micro] at hm
    cases hr : wr p.used (i / 8) (v &&& ~~~(1#8 <<< (i % 8))) with
    | error e => rw [hr] at hm; simp [error_bind] at hm
    | ok v =>
      rw [hr] at hm
      simp only [ok_bindE, pure_eq_ok, Except.ok.injEq, Prod.mk.injEq, Sum.inl.injEq] at hm
      obtain ⟨rfl, rfl⟩ := hm
      exact ⟨h, by simp only [mu]; omega, by simp⟩
  | avail =>
    simp only [micro, pure_eq_ok] at hm
    split at hm
    · simp only [Except.ok.injEq, Prod.mk.injEq, Sum.inl.injEq] at hm
      obtain ⟨rfl, rfl⟩ := hm
      exact ⟨h, by simp only [mu]; omega, by simp⟩
    · simp at hm
  | byte b =>
    simp only [micro, pure_eq_ok] at hm
    split at hm
    · rename_i hb
      cases hr : rd p.used b with
      | error e => rw [hr] at hm; simp [error_bind] at hm
      | ok v =>
        rw [hr] at hm
        simp only [ok_bindE] at hm
        split at hm <;> (simp only [Except.ok.injEq, Prod.mk.injEq, Sum.inl.injEq] at hm; obtain ⟨rfl, rfl⟩ := hm
                         exact ⟨h, by simp only [mu]; omega, by simp⟩)
    · simp at hm
  | bit b i =>
    simp only [micro, pure_eq_ok] at hm
    split at hm
    · rename_i hb
      cases hr : BA_GET p.used i with
      | error e => rw [hr] at hm; simp [error_bind] at hm
      | ok v =>
        rw [hr] at hm
        simp only [ok_bindE] at hm
        split at hm <;> (simp only [Except.ok.injEq, Prod.mk.injEq, Sum.inl.injEq] at hm; obtain ⟨rfl, rfl⟩ := hm
                         exact ⟨h, by simp only [mu]; omega, by simp⟩)
    · simp only [Except.ok.injEq, Prod.mk.injEq, Sum.inl.injEq] at hm
      obtain ⟨rfl, rfl⟩ := hm
      exact ⟨h, by simp only [mu]; omega, by simp⟩
  | ftop =>
    simp only [micro, pure_eq_ok] at hm
    split at hm
    · simp only [Except.ok.injEq, Prod.mk.injEq, Sum.inl.injEq] at hm
      obtain ⟨rfl, rfl⟩ := hm
      exact ⟨⟨h, by omega⟩, by simp only [mu]; omega, by simp⟩
    · simp at hm
  | fbit j =>
    simp only [micro, pure_eq_ok] at hm
    cases hr : BA_GET p.used j with
    | error e => rw [hr] at hm; simp [error_bind] at hm
    | ok v =>
      rw [hr] at hm
      simp only [ok_bindE] at hm
      split at hm
      · simp at hm
      · simp only [Except.ok.injEq, Prod.mk.injEq, Sum.inl.injEq] at hm
        obtain ⟨rfl, rfl⟩ := hm
        exact ⟨h, by simp only [mu]; omega, by simp⟩
  | fdown v =>
    simp only [micro, pure_eq_ok, Except.ok.injEq, Prod.mk.injEq, Sum.inl.injEq] at hm
    obtain ⟨h1, h2, h3⟩ := h
    have e := sztSub_of_le (a := v) (b := 1) (by omega) h3
    obtain ⟨rfl, rfl⟩ := hm
    refine ⟨?_, ?_, by simp⟩
    · show sztSub v 1 < 2^64; rw [e]; omega
    · simp only [mu, e]; omega

/-- A thread that runs alone gets to the end. -/
inductive Runs (M E : Nat) (o : Op) : Pool → Pc → Pool → Option Nat → Prop
  | stop {p pc p' r} : micro M E o p pc = .ok (p', .inr r) → Runs M E o p pc p' r
  | step {p pc p1 pc1 p' r} : micro M E o p pc = .ok (p1, .inl pc1) → pc1 ≠ .idle → Runs M E o p1 pc1 p' r → Runs M E o p pc p' r

theorem runs_of_rest {M E : Nat} {o : Op} : ∀ (n : Nat) {p p' : Pool} {pc : Pc} {r : Option Nat}, mu M p pc ≤ n → Good p pc →
    rest M E o p pc = .ok (p', r) → Runs M E o p pc p' r := by
  intro n
  induction n with
  | zero =>
    intro p p' pc r hn hg hr
    rw [micro_rest M E o p pc hg.top] at hr
    cases hm : micro M E o p pc with
    | error e => rw [hm] at hr; simp [error_bind] at hr
    | ok x =>
      obtain ⟨p1, x⟩ := x
      cases x with
      | inl pc1 => have := (micro_good hg hm).2.1; omega
      | inr r1 =>
        rw [hm] at hr
        simp only [ok_bindE, after, pure_eq_ok, Except.ok.injEq, Prod.mk.injEq] at hr
        obtain ⟨rfl, rfl⟩ := hr
        exact .stop hm
  | succ n ih =>
    intro p p' pc r hn hg hr
    rw [micro_rest M E o p pc hg.top] at hr
    cases hm : micro M E o p pc with
    | error e => rw [hm] at hr; simp [error_bind] at hr
    | ok x =>
      obtain ⟨p1, x⟩ := x
      rw [hm] at hr
      simp only [ok_bindE] at hr
      cases x with
      | inl pc1 =>
        obtain ⟨g1, g2, g3⟩ := micro_good hg hm
        exact .step hm g3 (ih (by omega) g1 hr)
      | inr r1 =>
        simp only [after, pure_eq_ok, Except.ok.injEq, Prod.mk.injEq] at hr
        obtain ⟨rfl, rfl⟩ := hr
        exact .stop hm

/-! ### Two threads in step -/

theorem wr_again {u u' : List Byte} {i : Nat} {v : Byte} (h : wr u i v = .ok u') : wr u' i v = .ok u' := by
  unfold wr at h
  split at h
  · have h := Except.ok.inj h
    subst h
    unfold wr
    rw [List.length_set, if_pos (by assumption), List.set_set]
  · cases h

/-- Making a step again, from where it was made, changes nothing. -/
theorem micro_again {M E : Nat} {o : Op} {p p' : Pool} {pc : Pc} {x : Pc ⊕ Option Nat} (h : micro M E o p pc = .ok (p', x)) :
    micro M E o p' pc = .ok (p', x) := by
  have same : p' = p → micro M E o p' pc = .ok (p', x) := by intro e; rw [e]; rw [e] at h; exact h
  cases pc with
  | idle =>
    apply same
    simp only [micro, pure_eq_ok] at h
    cases o with
    | alloc size =>
      simp only [] at h
      split at h
      · exact (Prod.mk.inj (Except.ok.inj h)).1.symm
      · split at h <;> exact (Prod.mk.inj (Except.ok.inj h)).1.symm
    | free d =>
      simp only [] at h
      split at h
      · exact (Prod.mk.inj (Except.ok.inj h)).1.symm
      · cases hg : getIdx p.used (ssa_getidx E d) with
        | error e => rw [hg] at h; simp [error_bind] at h
        | ok b => rw [hg] at h; cases b <;> exact (Prod.mk.inj (Except.ok.inj h)).1.symm
  | inc | pick | take i | fgive | flast | fdec => exact same (Prod.mk.inj (Except.ok.inj h)).1.symm
  | bump v | took i v | fgave v | fdown v =>
    simp only [micro, pure_eq_ok] at h ⊢
    obtain ⟨rfl, rfl⟩ := Prod.mk.inj (Except.ok.inj h)
    rfl
  | set i | fclr i =>
    apply same
    simp only [micro] at h
    cases hr : rd p.used (i / 8) with
    | error e => rw [hr] at h; simp [error_bind] at h
    | ok v => rw [hr] at h; exact (Prod.mk.inj (Except.ok.inj h)).1.symm
  | mark i v =>
    simp only [micro] at h ⊢
    cases hr : wr p.used (i / 8) (v ||| 1#8 <<< (i % 8)) with
    | error e => rw [hr] at h; simp [error_bind] at h
    | ok u =>
      rw [hr] at h
      simp only [ok_bindE, pure_eq_ok] at h ⊢
      obtain ⟨rfl, rfl⟩ := Prod.mk.inj (Except.ok.inj h)
      simp only [wr_again hr, ok_bindE]
  | fmark i v =>
    simp only [micro] at h ⊢
    cases hr : wr p.used (i / 8) (v &&& ~~~(1#8 <<< (i % 8))) with
    | error e => rw [hr] at h; simp [error_bind] at h
    | ok u =>
      rw [hr] at h
      simp only [ok_bindE, pure_eq_ok] at h ⊢
      obtain ⟨rfl, rfl⟩ := Prod.mk.inj (Except.ok.inj h)
      simp only [wr_again hr, ok_bindE]
  | avail | ftop =>
    apply same
    simp only [micro, pure_eq_ok] at h
    split at h <;> exact (Prod.mk.inj (Except.ok.inj h)).1.symm
  | byte b =>
    apply same
    simp only [micro, pure_eq_ok] at h
    split at h
    · cases hr : rd p.used b with
      | error e => rw [hr] at h; simp [error_bind] at h
      | ok v =>
        rw [hr] at h
        simp only [ok_bindE] at h
        split at h <;> exact (Prod.mk.inj (Except.ok.inj h)).1.symm
    · exact (Prod.mk.inj (Except.ok.inj h)).1.symm
  | bit b i =>
    apply same
    simp only [micro, pure_eq_ok] at h
    split at h
    · cases hr : BA_GET p.used i with
      | error e => rw [hr] at h; simp [error_bind] at h
      | ok v => rw [hr] at h; cases v <;> exact (Prod.mk.inj (Except.ok.inj h)).1.symm
    · exact (Prod.mk.inj (Except.ok.inj h)).1.symm
  | fbit j =>
    apply same
    simp only [micro, pure_eq_ok] at h
    cases hr : BA_GET p.used j with
    | error e => rw [hr] at h; simp [error_bind] at h
    | ok v => rw [hr] at h; cases v <;> exact (Prod.mk.inj (Except.ok.inj h)).1.symm

theorem upd_self {α : Type} (f : Nat → α) (t : Nat) (v : α) : upd f t v t = v := by unfold upd; rw [if_pos rfl]
theorem upd_ne {α : Type} (f : Nat → α) {t u : Nat} (v : α) (h : u ≠ t) : upd f t v u = f u := by unfold upd; rw [if_neg h]

theorem step_inl {M E : Nat} {s : St} {t : Nat} {o : Op} {os : List Op} {pc pc' : Pc} {out : List (Option Nat)} {p' : Pool}
    (ht : s.th t = ⟨o :: os, pc, out⟩) (hm : micro M E o s.pool pc = .ok (p', .inl pc')) :
    step M E s t = .ok ⟨p', upd s.th t ⟨o :: os, pc', out⟩⟩ := by
  unfold step
  simp only [ht, hm, ok_bindE, pure_eq_ok]

theorem step_inr {M E : Nat} {s : St} {t : Nat} {o : Op} {os : List Op} {pc : Pc} {out : List (Option Nat)} {p' : Pool} {r : Option Nat}
    (ht : s.th t = ⟨o :: os, pc, out⟩) (hm : micro M E o s.pool pc = .ok (p', .inr r)) :
    step M E s t = .ok ⟨p', upd s.th t ⟨os, .idle, out ++ [r]⟩⟩ := by
  unfold step
  simp only [ht, hm, ok_bindE, pure_eq_ok]

theorem run_append {M E : Nat} : ∀ (a b : List Nat) (s : St), run M E s (a ++ b) = run M E s a >>= fun s => run M E s b
  | [], b, s => rfl
  | t :: a, b, s => by
    simp only [List.cons_append, run]
    cases step M E s t with
    | error e => rfl
    | ok s' => exact run_append a b s'

/-- One thread alone. -/
theorem alone {M E : Nat} {o : Op} {p pc p' r} (h : Runs M E o p pc p' r) : ∀ {s : St} {t : Nat} {os : List Op} {out : List (Option Nat)},
    s.pool = p → s.th t = ⟨o :: os, pc, out⟩ →
    ∃ sched, run M E s sched = .ok ⟨p', upd s.th t ⟨os, .idle, out ++ [r]⟩⟩ := by
  induction h with
  | stop hm =>
    intro s t os out hp ht
    subst hp
    exact ⟨[t], by simp only [run, step_inr ht hm, ok_bindE, pure_eq_ok]⟩
  | step hm _ _ ih =>
    intro s t os out hp ht
    subst hp
    obtain ⟨sched, hs⟩ := ih (s := ⟨_, upd s.th t ⟨o :: os, _, out⟩⟩) rfl (upd_self _ _ _)
    refine ⟨t :: sched, ?_⟩
    simp only [run, step_inl ht hm, ok_bindE]
    rw [hs]
    congr 2
    funext v
    simp only [upd]
    split <;> rfl

/-- After the first step the arguments of the call do not matter. -/
theorem micro_op {M E : Nat} (o o' : Op) {p : Pool} {pc : Pc} (h : pc ≠ .idle) : micro M E o' p pc = micro M E o p pc := by
  cases pc with
  | idle => exact absurd rfl h
  | _ => rfl

/-- Two threads in step: both get the answer, and the pool is as after one call. -/
theorem lockstep {M E : Nat} {o o' : Op} {p pc p' r} (h : Runs M E o p pc p' r) : micro M E o' p pc = micro M E o p pc →
    (pc = .idle → ∀ p, micro M E o' p pc = micro M E o p pc) →
    ∀ {s : St} {t u : Nat} {os os' : List Op} {out out' : List (Option Nat)}, t ≠ u → s.pool = p →
    s.th t = ⟨o :: os, pc, out⟩ → s.th u = ⟨o' :: os', pc, out'⟩ →
    ∃ sched, run M E s sched = .ok ⟨p', upd (upd s.th t ⟨os, .idle, out ++ [r]⟩) u ⟨os', .idle, out' ++ [r]⟩⟩ := by
  induction h with
  | @stop p pc p' r hm =>
    intro hs0 hs1 s t u os os' out out' htu hp ht hu
    subst hp
    have hs : ∀ p, micro M E o' p pc = micro M E o p pc := by
      by_cases hi : pc = .idle
      · exact hs1 hi
      · exact fun p => micro_op o o' hi
    refine ⟨[t, u], ?_⟩
    simp only [run, step_inr ht hm, ok_bindE]
    rw [step_inr (s := ⟨p', upd s.th t ⟨os, .idle, out ++ [r]⟩⟩) (t := u) (o := o') (os := os') (pc := pc) (out := out') (p' := p') (r := r)
      (by simp only [upd_ne _ _ (Ne.symm htu), hu]) (by rw [hs]; exact micro_again hm)]
    rfl
  | @step p pc p1 pc1 p' r hm hne _ ih =>
    intro hs0 hs1 s t u os os' out out' htu hp ht hu
    subst hp
    have hs : ∀ p, micro M E o' p pc = micro M E o p pc := by
      by_cases hi : pc = .idle
      · exact hs1 hi
      · exact fun p => micro_op o o' hi
    obtain ⟨sched, hr⟩ := ih (micro_op o o' hne) (fun hi => absurd hi hne) (s := ⟨p1, upd (upd s.th t ⟨o :: os, pc1, out⟩) u ⟨o' :: os', pc1, out'⟩⟩)
      (os := os) (out := out) htu rfl
      (by simp only [upd_ne _ _ htu, upd_self]) (upd_self _ _ _)
    refine ⟨t :: u :: sched, ?_⟩
    simp only [run, step_inl ht hm, ok_bindE]
    rw [step_inl (s := ⟨p1, upd s.th t ⟨o :: os, pc1, out⟩⟩) (t := u) (o := o') (os := os') (pc := pc) (out := out') (p' := p1) (pc' := pc1)
      (by simp only [upd_ne _ _ (Ne.symm htu), hu]) (by rw [hs]; exact micro_again hm)]
    simp only [ok_bindE]
    rw [hr]
    congr 2
    funext v
    by_cases hvu : v = u
    · subst hvu; simp only [upd_self]
    · simp only [upd_ne _ _ hvu]
      by_cases hvt : v = t
      · subst hvt; simp only [upd_self]
      · simp only [upd_ne _ _ hvt, upd_ne _ _ hvu]

theorem alloc_same {M E a b : Nat} (ha : a ≤ E) (hb : b ≤ E) (p : Pool) (pc : Pc) :
    micro M E (.alloc b) p pc = micro M E (.alloc a) p pc := by
  cases pc with
  | idle => simp only [micro]; rw [if_neg (show ¬b > E by omega), if_neg (show ¬a > E by omega)]
  | _ => rfl

/-- Calls that do not look at the pool are made one step each. -/
theorem skip {M E : Nat} : ∀ (pre : List Op) {s : St} {t : Nat} {os : List Op} {out : List (Option Nat)}, (∀ o ∈ pre, Local M E o) →
    (∀ o, Local M E o → ∀ p, micro M E o p .idle = .ok (p, .inr none)) → s.th t = ⟨pre ++ os, .idle, out⟩ →
    ∃ sched, run M E s sched = .ok ⟨s.pool, upd s.th t ⟨os, .idle, out ++ List.replicate pre.length none⟩⟩
  | [], s, t, os, out, _, _, ht => by
    refine ⟨[], ?_⟩
    simp only [run, pure_eq_ok]
    congr 1
    obtain ⟨p, th⟩ := s
    simp only [St.mk.injEq, true_and]
    funext v
    by_cases hv : v = t
    · subst hv; simp only [upd_self]; simp only at ht; rw [ht]; simp
    · simp only [upd_ne _ _ hv]
  | o :: pre, s, t, os, out, h, hl, ht => by
    have h1 := step_inr ht (hl o (h o (by simp)) s.pool)
    obtain ⟨sched, h2⟩ := skip pre (s := ⟨s.pool, upd s.th t ⟨pre ++ os, .idle, out ++ [none]⟩⟩) (t := t) (os := os) (out := out ++ [none])
      (fun o ho => h o (by simp [ho])) hl (upd_self _ _ _)
    refine ⟨t :: sched, ?_⟩
    have h1' : step M E s t = .ok ⟨s.pool, upd s.th t ⟨pre ++ os, .idle, out ++ [none]⟩⟩ := h1
    simp only [run, h1', ok_bindE]
    rw [h2]
    congr 2
    funext v
    by_cases hv : v = t
    · subst hv; simp only [upd_self]; rw [List.append_assoc]; rfl
    · simp only [upd_ne _ _ hv]

/-! ### Calls that do not overlap -/

def opsOf (hist : List Entry) : List Op := hist.map fun e => e.2.1
def resOf (hist : List Entry) : List (Option Nat) := hist.map fun e => e.2.2

/-- What holds while calls do not overlap. -/
structure SInv (M E : Nat) (p0 : Pool) (prog : Nat → List Op) (s : St) (hist : List Entry) (q : Pool) (live : List Nat) : Prop where
  hrun : Ssalloc.run M E p0 (opsOf hist) = .ok (q, resOf hist)
  inv : Inv M q live
  thr : ∀ t, prog t = opsOf (hist.filter fun e => e.1 = t) ++ (s.th t).calls ∧ (s.th t).out = resOf (hist.filter fun e => e.1 = t)
  busy : ((∀ t, (s.th t).pc = .idle) ∧ s.pool = q) ∨
    ∃ t o os, (s.th t).calls = o :: os ∧ (s.th t).pc ≠ .idle ∧ (∀ u, u ≠ t → (s.th u).pc = .idle) ∧
      Good s.pool (s.th t).pc ∧ rest M E o s.pool (s.th t).pc = Ssalloc.step M E q o

theorem srun_append {M E : Nat} : ∀ (a b : List Op) (p : Pool), Ssalloc.run M E p (a ++ b) =
    (do let (q, rs) ← Ssalloc.run M E p a
        let (q', rs') ← Ssalloc.run M E q b
        pure (q', rs ++ rs'))
  | [], b, p => by
    simp only [List.nil_append, Ssalloc.run, pure_eq_ok, ok_bindE]
    cases Ssalloc.run M E p b <;> rfl
  | o :: a, b, p => by
    simp only [List.cons_append, Ssalloc.run]
    cases Ssalloc.step M E p o with
    | error e => rfl
    | ok x =>
      obtain ⟨p1, r⟩ := x
      simp only [ok_bindE]
      rw [srun_append a b p1]
      cases Ssalloc.run M E p1 a with
      | error e => rfl
      | ok y =>
        obtain ⟨p2, rs⟩ := y
        simp only [ok_bindE, pure_eq_ok]
        cases Ssalloc.run M E p2 b <;> rfl

theorem hist_add {M E : Nat} {p0 q q' : Pool} {hist : List Entry} {t : Nat} {o : Op} {r : Option Nat}
    (h : Ssalloc.run M E p0 (opsOf hist) = .ok (q, resOf hist)) (hs : Ssalloc.step M E q o = .ok (q', r)) :
    Ssalloc.run M E p0 (opsOf (hist ++ [(t, o, r)])) = .ok (q', resOf (hist ++ [(t, o, r)])) := by
  have e1 : opsOf (hist ++ [(t, o, r)]) = opsOf hist ++ [o] := by simp [opsOf]
  have e2 : resOf (hist ++ [(t, o, r)]) = resOf hist ++ [r] := by simp [resOf]
  rw [e1, e2, srun_append, h]
  simp only [ok_bindE, Ssalloc.run, hs, pure_eq_ok]

theorem thr_add {prog : Nat → List Op} {s : St} {hist : List Entry} {t : Nat} {o : Op} {os : List Op} {r : Option Nat} {p : Pool}
    (h : ∀ t, prog t = opsOf (hist.filter fun e => e.1 = t) ++ (s.th t).calls ∧ (s.th t).out = resOf (hist.filter fun e => e.1 = t))
    (ho : (s.th t).calls = o :: os) :
    ∀ u, prog u = opsOf ((hist ++ [(t, o, r)]).filter fun e => e.1 = u) ++ (upd s.th t ⟨os, .idle, (s.th t).out ++ [r]⟩ u).calls ∧
      (upd s.th t ⟨os, .idle, (s.th t).out ++ [r]⟩ u).out = resOf ((hist ++ [(t, o, r)]).filter fun e => e.1 = u) := by
  intro u
  by_cases hu : u = t
  · subst hu
    simp only [upd_self]
    obtain ⟨h1, h2⟩ := h u
    rw [h1, h2, ho, List.filter_append]
    simp [opsOf, resOf]
  · simp only [upd_ne _ _ hu]
    obtain ⟨h1, h2⟩ := h u
    rw [List.filter_append]
    have : ([(t, o, r)] : List Entry).filter (fun e => e.1 = u) = [] := by simp [Ne.symm hu]
    rw [this, List.append_nil]
    exact ⟨h1, h2⟩

theorem eta (T : Thread) {o : Op} {os : List Op} (h : T.calls = o :: os) : T = ⟨o :: os, T.pc, T.out⟩ := by
  cases T; simp only at h; subst h; rfl

theorem local_micro {M E : Nat} {o : Op} (h : Local M E o) (p : Pool) : micro M E o p .idle = .ok (p, .inr none) := by
  cases o with
  | alloc size => simp only [micro]; rw [if_pos (show size > E from h)]; rfl
  | free d => simp only [micro]; rw [if_pos (show ssa_getidx E d = -1 ∨ ssa_getidx E d ≥ M from h)]; rfl

theorem local_step {M E : Nat} {o : Op} (h : Local M E o) (p : Pool) : Ssalloc.step M E p o = .ok (p, none) := by
  cases o with
  | alloc size => simp only [Ssalloc.step, ssa_alloc]; rw [if_pos (show size > E from h)]; rfl
  | free d => simp only [Ssalloc.step, ssa_free]; rw [if_pos (show ssa_getidx E d = -1 ∨ ssa_getidx E d ≥ M from h)]; rfl

theorem sinv_step {M E : Nat} (hM : 0 < M) (hE : 0 < E) {p0 : Pool} {prog : Nat → List Op} (hok : ∀ t, ∀ o ∈ prog t, OpOk E o) {s : St}
    {hist : List Entry} {q : Pool} {live : List Nat} (h : SInv M E p0 prog s hist q live) {t : Nat}
    (hn : (∀ u, u ≠ t → (s.th u).pc = .idle) ∨ ∀ o, (s.th t).calls.head? = some o → Local M E o) :
    ∃ s' hist' q' live', step M E s t = .ok s' ∧ SInv M E p0 prog s' hist' q' live' := by
  cases hc : (s.th t).calls with
  | nil =>
    refine ⟨s, hist, q, live, ?_, h⟩
    unfold step; simp only [hc, pure_eq_ok]
  | cons o os =>
    have hT := eta (s.th t) hc
    have hoo : OpOk E o := hok t o (by rw [(h.thr t).1, hc]; simp)
    -- the thread is undisturbed
    have main : Good s.pool (s.th t).pc → rest M E o s.pool (s.th t).pc = Ssalloc.step M E q o → (∀ u, u ≠ t → (s.th u).pc = .idle) →
        ∃ s' hist' q' live', step M E s t = .ok s' ∧ SInv M E p0 prog s' hist' q' live' := by
      intro hg hr hidle
      obtain ⟨q', live', r, e1, e2, _⟩ := step_spec hM hE h.inv hoo
      rw [e1, micro_rest M E o s.pool _ hg.top] at hr
      cases hm : micro M E o s.pool (s.th t).pc with
      | error e => rw [hm] at hr; simp [error_bind] at hr
      | ok x =>
        obtain ⟨p1, x⟩ := x
        rw [hm] at hr
        simp only [ok_bindE] at hr
        cases x with
        | inl pc1 =>
          obtain ⟨g1, _, g3⟩ := micro_good hg hm
          refine ⟨_, hist, q, live, step_inl hT hm, h.hrun, h.inv, ?_, ?_⟩
          · intro u
            by_cases hu : u = t
            · subst hu
              simp only [upd_self]
              rw [← hc]; exact h.thr u
            · simp only [upd_ne _ _ hu]; exact h.thr u
          · refine .inr ⟨t, o, os, by simp only [upd_self], by simp only [upd_self]; exact g3, fun u hu => by simp only [upd_ne _ _ hu]; exact hidle u hu, ?_, ?_⟩
            · simp only [upd_self]; exact g1
            · simp only [upd_self]; rw [e1]; exact hr
        | inr r1 =>
          simp only [after, pure_eq_ok, Except.ok.injEq, Prod.mk.injEq] at hr
          obtain ⟨rfl, rfl⟩ := hr
          refine ⟨_, hist ++ [(t, o, r1)], p1, live', step_inr hT hm, hist_add h.hrun e1, e2, thr_add (p := p1) h.thr hc, .inl ⟨?_, rfl⟩⟩
          intro u
          by_cases hu : u = t
          · subst hu; simp only [upd_self]
          · simp only [upd_ne _ _ hu]; exact hidle u hu
    have lcl : Local M E o → (s.th t).pc = .idle → ∃ s' hist' q' live', step M E s t = .ok s' ∧ SInv M E p0 prog s' hist' q' live' := by
      intro hl hi
      rw [hi] at hT
      refine ⟨_, hist ++ [(t, o, none)], q, live, step_inr hT (local_micro hl _), hist_add h.hrun (local_step hl q), h.inv,
        thr_add (p := s.pool) h.thr hc, ?_⟩
      rcases h.busy with ⟨b1, b2⟩ | ⟨t', o', os', b1, b2, b3, b4, b5⟩
      · refine .inl ⟨fun u => ?_, b2⟩
        by_cases hu : u = t
        · subst hu; simp only [upd_self]
        · simp only [upd_ne _ _ hu]; exact b1 u
      · have hne : t' ≠ t := by intro e; subst e; exact b2 hi
        refine .inr ⟨t', o', os', ?_, ?_, ?_, ?_, ?_⟩
        · simp only [upd_ne _ _ hne]; exact b1
        · simp only [upd_ne _ _ hne]; exact b2
        · intro u hu
          by_cases hut : u = t
          · subst hut; simp only [upd_self]
          · simp only [upd_ne _ _ hut]; exact b3 u hu
        · simp only [upd_ne _ _ hne]; exact b4
        · simp only [upd_ne _ _ hne]; exact b5
    rcases h.busy with ⟨b1, b2⟩ | ⟨t', o', os', b1, b2, b3, b4, b5⟩
    · refine main ?_ ?_ (fun u _ => b1 u)
      · rw [b1 t, b2]; have := h.inv.top; have := h.inv.small; show q.top < 2^64; omega
      · rw [b1 t, b2]; exact rest_idle h.inv
    · by_cases hne : t' = t
      · subst hne
        rw [hc] at b1
        obtain ⟨rfl, rfl⟩ := List.cons.inj b1
        exact main b4 b5 b3
      · rcases hn with hn | hn
        · exact absurd (hn t' hne) b2
        · exact lcl (hn o (by rw [hc]; rfl)) (b3 t (Ne.symm hne))

theorem sinv_start {M E : Nat} {p : Pool} {live : List Nat} (h : Inv M p live) (prog : Nat → List Op) :
    SInv M E p prog (start p prog) [] p live :=
  ⟨rfl, h, fun t => ⟨rfl, rfl⟩, .inl ⟨fun t => rfl, rfl⟩⟩

theorem sinv_run {M E : Nat} (hM : 0 < M) (hE : 0 < E) {p0 : Pool} {prog : Nat → List Op} (hok : ∀ t, ∀ o ∈ prog t, OpOk E o) :
    ∀ (sched : List Nat) {s : St} {hist : List Entry} {q : Pool} {live : List Nat}, SInv M E p0 prog s hist q live → NoOverlap M E s sched →
    ∃ s' hist' q' live', run M E s sched = .ok s' ∧ SInv M E p0 prog s' hist' q' live'
  | [], s, hist, q, live, h, _ => ⟨s, hist, q, live, rfl, h⟩
  | t :: ts, s, hist, q, live, h, hn => by
    obtain ⟨s1, h1, q1, l1, e1, i1⟩ := sinv_step hM hE hok h hn.1
    obtain ⟨s2, h2, q2, l2, e2, i2⟩ := sinv_run hM hE hok ts i1 (hn.2 s1 e1)
    refine ⟨s2, h2, q2, l2, ?_, i2⟩
    simp only [run, e1, ok_bindE]
    exact e2

theorem SInv.serial {M E : Nat} {p0 : Pool} {prog : Nat → List Op} {s : St} {hist : List Entry} {q : Pool} {live : List Nat}
    (h : SInv M E p0 prog s hist q live) : Serial M E p0 prog s := by
  refine ⟨hist, q, h.hrun, h.thr, fun hi => ?_⟩
  rcases h.busy with ⟨_, b2⟩ | ⟨t', _, _, _, b2, _⟩
  · exact b2
  · exact absurd (hi t') b2

/-- Only one thread has calls that look at the pool. -/
theorem one_noOverlap {M E : Nat} (t0 : Nat) : ∀ (sched : List Nat) {s : St}, (∀ u, u ≠ t0 → (s.th u).pc = .idle ∧ ∀ o ∈ (s.th u).calls, Local M E o) →
    NoOverlap M E s sched
  | [], s, _ => trivial
  | t :: ts, s, h => by
    refine ⟨?_, fun s' hs' => one_noOverlap t0 ts ?_⟩
    · by_cases ht : t = t0
      · subst ht; exact .inl fun u hu => (h u hu).1
      · exact .inr fun o ho => (h t ht).2 o (List.mem_of_mem_head? (by rw [ho]; rfl))
    · intro u hu
      cases hc : (s.th t).calls with
      | nil =>
        unfold step at hs'
        simp only [hc, pure_eq_ok, Except.ok.injEq] at hs'
        subst hs'
        exact h u hu
      | cons o os =>
        have hT := eta (s.th t) hc
        by_cases hut : u = t
        · subst hut
          obtain ⟨h1, h2⟩ := h u hu
          rw [h1] at hT
          rw [step_inr hT (local_micro (h2 o (by rw [hc]; simp)) _)] at hs'
          have hs' := Except.ok.inj hs'
          subst hs'
          simp only [upd_self]
          exact ⟨trivial, fun x hx => h2 x (by rw [hc]; simp [hx])⟩
        · cases hm : micro M E o s.pool (s.th t).pc with
          | error e =>
            unfold step at hs'
            simp only [hc, hm, error_bind] at hs'
            cases hs'
          | ok x =>
            obtain ⟨p1, x⟩ := x
            cases x with
            | inl pc1 =>
              rw [step_inl hT hm] at hs'
              have hs' := Except.ok.inj hs'
              subst hs'
              simp only [upd_ne _ _ hut]
              exact h u hu
            | inr r1 =>
              rw [step_inr hT hm] at hs'
              have hs' := Except.ok.inj hs'
              subst hs'
              simp only [upd_ne _ _ hut]
              exact h u hu

/-! ### Allocations are distinct -/

theorem results_distinct {M E : Nat} (hE : 0 < E) {live live' : List Nat} {ops : List Op} {rs : List (Option Nat)} (h : Steps M E live ops live' rs)
    (ha : ∀ o ∈ ops, ∃ a, o = .alloc a) :
    rs.Pairwise (fun x y => ∀ a, x = some a → y ≠ some a) ∧ ∀ x ∈ rs, ∀ a, x = some a → ∃ i, i < M ∧ i ∉ live ∧ a = i * E := by
  induction h with
  | nil => exact ⟨.nil, by simp⟩
  | @cons live o l1 r os l2 rs hs _ ih =>
    obtain ⟨i1, i2⟩ := ih fun o ho => ha o (by simp [ho])
    cases hs with
    | alloc h1 h2 h3 h4 h5 =>
      rename_i i _
      constructor
      · refine .cons (fun y hy a hx hy' => ?_) i1
        obtain ⟨j, _, hj, hja⟩ := i2 y hy a hy'
        have hx := Option.some.inj hx
        have : i = j := Nat.eq_of_mul_eq_mul_right hE (by rw [hx, hja])
        exact hj (by rw [this]; simp)
      · intro x hx a hxa
        rcases List.mem_cons.1 hx with e | hx
        · rw [e] at hxa; exact ⟨i, h3, h4, (Option.some.inj hxa).symm⟩
        · obtain ⟨j, g1, g2, g3⟩ := i2 x hx a hxa
          exact ⟨j, g1, fun hh => g2 (by simp [hh]), g3⟩
    | full h1 h2 =>
      exact ⟨.cons (by simp) i1, fun x hx a hxa => by
        rcases List.mem_cons.1 hx with e | hx
        · rw [e] at hxa; cases hxa
        · exact i2 x hx a hxa⟩
    | big h1 =>
      exact ⟨.cons (by simp) i1, fun x hx a hxa => by
        rcases List.mem_cons.1 hx with e | hx
        · rw [e] at hxa; cases hxa
        · exact i2 x hx a hxa⟩
    | free _ => obtain ⟨a, ha⟩ := ha _ List.mem_cons_self; cases ha
    | notLive _ => obtain ⟨a, ha⟩ := ha _ List.mem_cons_self; cases ha

theorem pairwise_ne {α : Type} {R : α → α → Prop} (hR : ∀ a b, R a b → R b a) : ∀ {l : List α}, l.Pairwise R → ∀ {a b : α}, a ∈ l → b ∈ l → a ≠ b → R a b
  | [], _, a, b, ha, _, _ => by cases ha
  | x :: l, h, a, b, ha, hb, hne => by
    obtain ⟨h1, h2⟩ := List.pairwise_cons.1 h
    rcases List.mem_cons.1 ha with e1 | ha' <;> rcases List.mem_cons.1 hb with e2 | hb'
    · exact absurd (e1.trans e2.symm) hne
    · rw [e1]; exact h1 b hb'
    · rw [e2]; exact hR _ _ (h1 a ha')
    · exact pairwise_ne hR h2 ha' hb' hne

theorem sound_of_serial {M E : Nat} (hM : 0 < M) (hM' : M < 2^64) (hE : 0 < E) {prog : Nat → List Op}
    (ha : ∀ t, ∀ o ∈ prog t, ∃ a, o = .alloc a) {s : St} (h : Serial M E (ssa_init M) prog s) : Sound M E s := by
  obtain ⟨hist, q, h1, h2, _⟩ := h
  have hall : ∀ o ∈ opsOf hist, ∃ a, o = .alloc a := by
    intro o ho
    obtain ⟨e, he, rfl⟩ := List.mem_map.1 ho
    refine ha e.1 e.2.1 ?_
    rw [(h2 e.1).1]
    exact List.mem_append_left _ (List.mem_map.2 ⟨e, List.mem_filter.2 ⟨he, by simp⟩, rfl⟩)
  obtain ⟨q', live', rs, e1, _, e3⟩ := run_spec hM hE (opsOf hist) (inv_init M hM') (fun o ho => by
    obtain ⟨a, rfl⟩ := hall o ho; trivial)
  have h1' : Ssalloc.run M E (ssa_init M) (opsOf hist) = .ok (q, resOf hist) := h1
  rw [h1'] at e1
  obtain ⟨rfl, rfl⟩ := Prod.mk.inj (Except.ok.inj e1)
  obtain ⟨d1, d2⟩ := results_distinct hE e3 hall
  have d1 : hist.Pairwise fun e e' => ∀ a, e.2.2 = some a → e'.2.2 ≠ some a := List.pairwise_map.1 d1
  intro t
  have ho := (h2 t).2
  refine ⟨?_, ?_, ?_⟩
  · rw [ho]
    show List.Pairwise _ _
    rw [List.pairwise_filterMap, List.pairwise_map]
    exact (d1.sublist List.filter_sublist).imp fun hab b hb b' hb' e => by
      subst e; exact hab b hb hb'
  · intro a haa
    rw [ho] at haa
    obtain ⟨e, he, hea⟩ := List.mem_map.1 haa
    obtain ⟨i, hi, _, hia⟩ := d2 e.2.2 (List.mem_map.2 ⟨e, (List.mem_filter.1 he).1, rfl⟩) a hea
    exact ⟨i, hi, hia⟩
  · intro u hu a haa hba
    rw [ho] at haa
    rw [(h2 u).2] at hba
    obtain ⟨e, he, hea⟩ := List.mem_map.1 haa
    obtain ⟨f, hf, hfa⟩ := List.mem_map.1 hba
    have hne : e ≠ f := by
      intro eq
      have a1 := (List.mem_filter.1 he).2
      have a2 := (List.mem_filter.1 hf).2
      simp only [decide_eq_true_eq] at a1 a2
      rw [eq] at a1
      exact hu (by rw [← a2, a1])
    exact pairwise_ne (R := fun e e' : Entry => ∀ a, e.2.2 = some a → e'.2.2 ≠ some a) (fun x y hxy a hy hx => hxy a hx hy) d1
      (List.mem_filter.1 he).1 (List.mem_filter.1 hf).1 hne a hea hfa

theorem step_det {M E : Nat} (hE : 0 < E) {live l1 l2 : List Nat} {o : Op} {r : Option Nat} (h1 : Step M E live o l1 r) (h2 : Step M E live o l2 r) : l1 = l2 := by
  cases h1 with
  | alloc a1 a2 a3 a4 a5 =>
    rename_i i
    generalize hy : i * E = y at h2
    cases h2 with
    | alloc b1 b2 b3 b4 b5 =>
      rename_i k
      rw [Nat.eq_of_mul_eq_mul_right hE hy]
  | full a1 a2 => cases h2 with
    | full => rfl
    | big => rfl
  | big a1 => cases h2 with
    | full => rfl
    | big => rfl
  | free a1 =>
    rename_i i
    generalize hy : ((i * E : Nat) : Int) = y at h2
    cases h2 with
    | free b1 =>
      rename_i k
      rw [Nat.eq_of_mul_eq_mul_right hE (Int.ofNat.inj hy)]
    | notLive b1 => exact absurd hy.symm (b1 i a1)
  | notLive a1 =>
    cases h2 with
    | free b1 => exact absurd rfl (a1 _ b1)
    | notLive b1 => rfl

theorem steps_det {M E : Nat} (hE : 0 < E) {live l1 l2 : List Nat} {ops : List Op} {rs : List (Option Nat)} (h1 : Steps M E live ops l1 rs) :
    Steps M E live ops l2 rs → l1 = l2 := by
  induction h1 with
  | nil => intro h2; cases h2; rfl
  | cons a _ ih =>
    intro h2
    cases h2 with
    | cons b h =>
      have := step_det hE a b
      subst this
      exact ih h

/-! ### Two threads, step by step -/

/-- The threads, two of them given. -/
def two (f : Nat → Thread) (t u : Nat) (T U : Thread) : Nat → Thread := upd (upd f t T) u U

theorem two_left {f : Nat → Thread} {t u : Nat} {T U : Thread} (h : t ≠ u) : two f t u T U t = T := by
  unfold two; rw [upd_ne _ _ h, upd_self]
theorem two_right {f : Nat → Thread} {t u : Nat} {T U : Thread} : two f t u T U u = U := upd_self _ _ _
theorem two_self (f : Nat → Thread) (t u : Nat) : two f t u (f t) (f u) = f := by
  funext v
  unfold two
  by_cases hu : v = u
  · rw [hu, upd_self]
  · rw [upd_ne _ _ hu]
    by_cases ht : v = t
    · rw [ht, upd_self]
    · rw [upd_ne _ _ ht]
theorem two_updl {f : Nat → Thread} {t u : Nat} {T T' U : Thread} (h : t ≠ u) : upd (two f t u T U) t T' = two f t u T' U := by
  funext v
  by_cases ht : v = t
  · rw [ht, upd_self, two_left h]
  · rw [upd_ne _ _ ht]
    unfold two
    by_cases hu : v = u
    · rw [hu, upd_self, upd_self]
    · rw [upd_ne _ _ hu, upd_ne _ _ ht, upd_ne _ _ hu, upd_ne _ _ ht]
theorem two_updr {f : Nat → Thread} {t u : Nat} {T U U' : Thread} : upd (two f t u T U) u U' = two f t u T U' := by
  funext v
  by_cases hu : v = u
  · rw [hu, upd_self, two_right]
  · rw [upd_ne _ _ hu]
    unfold two
    rw [upd_ne _ _ hu, upd_ne _ _ hu]

theorem left_inl {M E : Nat} {f : Nat → Thread} {t u : Nat} (h : t ≠ u) {p p' : Pool} {o : Op} {os : List Op} {pc pc' : Pc} {out : List (Option Nat)} {U : Thread}
    (hm : micro M E o p pc = .ok (p', .inl pc')) (ts : List Nat) :
    run M E ⟨p, two f t u ⟨o :: os, pc, out⟩ U⟩ (t :: ts) = run M E ⟨p', two f t u ⟨o :: os, pc', out⟩ U⟩ ts := by
  simp only [run]
  rw [step_inl (two_left h) hm, ok_bindE]
  simp only [two_updl h]

theorem right_inl {M E : Nat} {f : Nat → Thread} {t u : Nat} {p p' : Pool} {o : Op} {os : List Op} {pc pc' : Pc} {out : List (Option Nat)} {T : Thread}
    (hm : micro M E o p pc = .ok (p', .inl pc')) (ts : List Nat) :
    run M E ⟨p, two f t u T ⟨o :: os, pc, out⟩⟩ (u :: ts) = run M E ⟨p', two f t u T ⟨o :: os, pc', out⟩⟩ ts := by
  simp only [run]
  rw [step_inl two_right hm, ok_bindE]
  simp only [two_updr]

theorem left_err {M E : Nat} {f : Nat → Thread} {t u : Nat} (h : t ≠ u) {p : Pool} {o : Op} {os : List Op} {pc : Pc} {out : List (Option Nat)} {U : Thread} {e : UB}
    (hm : micro M E o p pc = .error e) (ts : List Nat) :
    run M E ⟨p, two f t u ⟨o :: os, pc, out⟩ U⟩ (t :: ts) = .error e := by
  simp only [run, step, two_left h, hm, error_bind]

/-- Both threads have found room below the last element and both have counted. -/
theorem both_count {M E : Nat} (hM' : M < 2^63) {p : Pool} (htop : p.top + 1 = M) {a b : Nat} (ha : a ≤ E) (hb : b ≤ E) (f : Nat → Thread)
    {t u : Nat} (htu : t ≠ u) (cs ds : List Op) (ts : List Nat) :
    run M E ⟨p, two f t u ⟨.alloc a :: cs, .idle, []⟩ ⟨.alloc b :: ds, .idle, []⟩⟩ (t :: u :: t :: t :: u :: u :: ts) =
      run M E ⟨{ p with top := M + 1 }, two f t u ⟨.alloc a :: cs, .pick, []⟩ ⟨.alloc b :: ds, .pick, []⟩⟩ ts := by
  have i1 : micro M E (.alloc a) p .idle = .ok (p, .inl .inc) := by
    simp only [micro]; rw [if_neg (by omega), if_pos (by omega)]; rfl
  have i2 : micro M E (.alloc b) p .idle = .ok (p, .inl .inc) := by
    simp only [micro]; rw [if_neg (by omega), if_pos (by omega)]; rfl
  have i3 : micro M E (.alloc a) p .inc = .ok (p, .inl (.bump p.top)) := rfl
  have i4 : micro M E (.alloc a) p (.bump p.top) = .ok ({ p with top := M }, .inl .pick) := by
    simp only [micro, pure_eq_ok]; rw [htop, szt_of_lt (by omega)]
  have i5 : micro M E (.alloc b) { p with top := M } .inc = .ok ({ p with top := M }, .inl (.bump M)) := rfl
  have i6 : micro M E (.alloc b) { p with top := M } (.bump M) = .ok ({ p with top := M + 1 }, .inl .pick) := by
    simp only [micro, pure_eq_ok]; rw [szt_of_lt (by omega)]
  rw [left_inl htu i1, right_inl i2, left_inl htu i3, left_inl htu i4, right_inl i5, right_inl i6]

theorem get_live {M : Nat} {p : Pool} {live : List Nat} (h : Inv M p live) {i : Nat} (hi : i ∈ live) :
    BA_GET p.used i = .ok true ∧ i < M ∧ i / 8 < p.used.length := by
  have iM : i < M := by have := h.lt i hi; have := h.top; omega
  have := size_ok h.len iM
  exact ⟨by rw [get_spec this, (h.bits i).2 hi], iM, by omega⟩

theorem free_idle {M E : Nat} (hE : 0 < E) {p : Pool} {i : Nat} (hiM : i < M) (hi : BA_GET p.used i = .ok true) :
    micro M E (.free ((i * E : Nat) : Int)) p .idle = .ok (p, .inl (.fclr i)) := by
  have hg : ssa_getidx E ((i * E : Nat) : Int) = (i : Int) := by
    rw [Int.natCast_mul]; exact getidx_mul hE i
  simp only [micro, hg]
  rw [if_neg (by omega)]
  unfold getIdx
  rw [if_neg (by omega)]
  simp only [Int.toNat_natCast, hi, ok_bindE, if_true, pure_eq_ok]

/-- Both threads have read the byte of both elements, and both have stored it. -/
theorem both_clear {M E : Nat} (hE : 0 < E) {p : Pool} {i j : Nat} (hiM : i < M) (hjM : j < M) (hi : BA_GET p.used i = .ok true)
    (hj : BA_GET p.used j = .ok true) (hl : i / 8 < p.used.length) (hij : i / 8 = j / 8) (f : Nat → Thread) {t u : Nat} (htu : t ≠ u) (cs ds : List Op) (ts : List Nat) :
    ∃ v, BA_SET_FALSE p.used j = .ok v ∧
    run M E ⟨p, two f t u ⟨.free ((i * E : Nat) : Int) :: cs, .idle, []⟩ ⟨.free ((j * E : Nat) : Int) :: ds, .idle, []⟩⟩ (t :: t :: u :: u :: t :: u :: ts) =
      run M E ⟨{ p with used := v }, two f t u ⟨.free ((i * E : Nat) : Int) :: cs, .fgive, []⟩ ⟨.free ((j * E : Nat) : Int) :: ds, .fgive, []⟩⟩ ts := by
  have hl' : j / 8 < p.used.length := by omega
  refine ⟨p.used.set (j / 8) (p.used[j / 8] &&& ~~~(1#8 <<< (j % 8))), ?_, ?_⟩
  · unfold BA_SET_FALSE; rw [rd_ok hl']; exact wr_ok hl'
  have i1 := free_idle (M := M) hE hiM hi
  have j1 := free_idle (M := M) hE hjM hj
  have i2 : micro M E (.free ((i * E : Nat) : Int)) p (.fclr i) = .ok (p, .inl (.fmark i p.used[i / 8])) := by
    simp only [micro]; rw [rd_ok hl]; rfl
  have j2 : micro M E (.free ((j * E : Nat) : Int)) p (.fclr j) = .ok (p, .inl (.fmark j p.used[j / 8])) := by
    simp only [micro]; rw [rd_ok hl']; rfl
  have i3 : micro M E (.free ((i * E : Nat) : Int)) p (.fmark i p.used[i / 8]) =
      .ok ({ p with used := p.used.set (i / 8) (p.used[i / 8] &&& ~~~(1#8 <<< (i % 8))) }, .inl .fgive) := by
    simp only [micro]; rw [wr_ok hl]; rfl
  have j3 : micro M E (.free ((j * E : Nat) : Int)) { p with used := p.used.set (i / 8) (p.used[i / 8] &&& ~~~(1#8 <<< (i % 8))) } (.fmark j p.used[j / 8]) =
      .ok ({ p with used := p.used.set (j / 8) (p.used[j / 8] &&& ~~~(1#8 <<< (j % 8))) }, .inl .fgive) := by
    simp only [micro]
    rw [wr_ok (by rw [List.length_set]; exact hl')]
    simp only [hij, List.set_set, ok_bindE, pure_eq_ok]
  rw [left_inl htu i1, left_inl htu i2, right_inl j1, right_inl j2, left_inl htu i3, right_inl j3]

end Ulz.Ssashare

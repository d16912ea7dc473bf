import Verif.Spec.Bashare
import Verif.Proofs.Bitarray
import Verif.Proofs.Frame
import Mathlib.Tactic.ByContra
/-! Lemmas about threads that share a bit array. -/
namespace Ulz.Bashare
open Ulz.Bashare.Spec

theorem upd_self {α : Type} (f : Nat → α) (t : Nat) (v : α) : upd f t v t = v := by simp [upd]

theorem upd_ne {α : Type} (f : Nat → α) {t u : Nat} (v : α) (h : u ≠ t) : upd f t v u = f u := by simp [upd, h]

theorem bitOf_eq (x : List Byte) (y : Nat) : bitOf x y = Bitarray.bit x y := rfl

theorem changed_bit (v : Byte) (y : Nat) (c : Bool) (i : Nat) (hi : i < 8) : (changed v y c).getLsbD i = if i = y % 8 then c else v.getLsbD i := by
  unfold changed
  cases c with
  | true =>
    rw [if_pos rfl, BitVec.getLsbD_or, Bitarray.getLsbD_shift1 _ _ hi]
    by_cases h : i = y % 8
    · rw [if_pos h]; simp [h]
    · rw [if_neg h]; simp [h]
  | false =>
    rw [if_neg (by simp), BitVec.getLsbD_and, BitVec.getLsbD_not, Bitarray.getLsbD_shift1 _ _ hi]
    by_cases h : i = y % 8
    · rw [if_pos h]; simp [h]
    · rw [if_neg h]; simp [h, hi]

theorem changed_same {v : Byte} {y : Nat} {c : Bool} (h : v.getLsbD (y % 8) = c) : changed v y c = v := by
  apply BitVec.eq_of_getLsbD_eq
  intro i hi
  rw [changed_bit _ _ _ _ hi]
  split
  · rename_i e; rw [e, h]
  · rfl

/-- A store of a byte that was loaded from `v`. -/
theorem bit_store {x : List Byte} {y : Nat} {v : Byte} {c : Bool} (hy : y < 8 * x.length) (z : Nat) :
    bitOf (x.set (y / 8) (changed v y c)) z = if z = y then c else if z / 8 = y / 8 then v.getLsbD (z % 8) else bitOf x z := by
  rw [bitOf_eq, Bitarray.bit_set (by omega)]
  by_cases h : z / 8 = y / 8
  · rw [if_pos h, changed_bit _ _ _ _ (Nat.mod_lt _ (by omega)), if_pos h]
    by_cases e : z = y
    · rw [if_pos (by rw [e]), if_pos e]
    · rw [if_neg (by omega), if_neg e]
  · rw [if_neg h, if_neg (fun e => h (by rw [e])), if_neg h]; rfl

theorem bit_of_byte {x : List Byte} {z : Nat} {v : Byte} (h : x[z / 8]? = some v) : bitOf x z = v.getLsbD (z % 8) := by
  unfold bitOf; rw [h]; rfl

theorem final_append (f : Nat → Bool) : ∀ (a b : List Op), final f (a ++ b) = final (final f a) b := by
  intro a
  induction a generalizing f with
  | nil => intro b; rfl
  | cons o os ih => intro b; cases o <;> simp only [List.cons_append, final] <;> exact ih _ b

/-- Calls that do not set a bit leave it. -/
theorem final_keep {f : Nat → Bool} {ops : List Op} {y : Nat} (h : ∀ c, .set y c ∉ ops) : final f ops y = f y := by
  induction ops generalizing f with
  | nil => rfl
  | cons o os ih =>
    have h' : ∀ c, .set y c ∉ os := fun c hc => h c (List.mem_cons_of_mem _ hc)
    cases o with
    | get z => exact ih h'
    | set z c =>
      simp only [final]
      rw [ih h']
      rw [if_neg (by rintro rfl; exact h c List.mem_cons_self)]

theorem answers_append (f : Nat → Bool) : ∀ (a b : List Op), answers f (a ++ b) = answers f a ++ answers (final f a) b := by
  intro a
  induction a generalizing f with
  | nil => intro b; rfl
  | cons o os ih => intro b; cases o <;> simp only [List.cons_append, final, answers] <;> rw [ih _ b]

theorem step_nil {s : St} {t : Nat} (hc : (s.th t).calls = []) : step s t = .ok s := by
  unfold step; simp only [hc, pure_eq_ok]

theorem step_get {s : St} {t y : Nat} {os : List Op} (hc : (s.th t).calls = .get y :: os) (hy : y < 8 * s.arr.length) :
    step s t = .ok ⟨s.arr, upd s.th t ⟨os, .idle, (s.th t).out ++ [bitOf s.arr y]⟩⟩ := by
  unfold step; simp only [hc, Bitarray.get_spec hy, ok_bindE, pure_eq_ok]; rfl

theorem step_load {s : St} {t y : Nat} {c : Bool} {os : List Op} (hc : (s.th t).calls = .set y c :: os) (hp : (s.th t).pc = .idle)
    (hy : y / 8 < s.arr.length) : step s t = .ok ⟨s.arr, upd s.th t ⟨.set y c :: os, .loaded s.arr[y / 8], (s.th t).out⟩⟩ := by
  unfold step; simp only [hc, hp, rd_ok hy, ok_bindE, pure_eq_ok]

theorem step_store {s : St} {t y : Nat} {c : Bool} {os : List Op} {v : Byte} (hc : (s.th t).calls = .set y c :: os) (hp : (s.th t).pc = .loaded v)
    (hy : y / 8 < s.arr.length) : step s t = .ok ⟨s.arr.set (y / 8) (changed v y c), upd s.th t ⟨os, .idle, (s.th t).out⟩⟩ := by
  unfold step; simp only [hc, hp, wr_ok hy, ok_bindE, pure_eq_ok]

theorem run_append : ∀ (a b : List Nat) (s : St), run s (a ++ b) = (run s a >>= fun s' => run s' b)
  | [], _, _ => rfl
  | t :: a, b, s => by
    simp only [List.cons_append, run]
    cases h : step s t with
    | error e => rfl
    | ok s1 => simp only [ok_bindE]; exact run_append a b s1

/-! ### Safe programs -/

/-- The invariant. -/
structure Inv (x : List Byte) (prog : Nat → List Op) (s : St) (done : Nat → List Op) : Prop where
  len : s.arr.length = x.length
  split : ∀ t, prog t = done t ++ (s.th t).calls
  out : ∀ t, (s.th t).out = answers (bitOf x) (done t)
  bits : ∀ t y, (∀ u, u ≠ t → ¬SetsBit (prog u) y) → bitOf s.arr y = final (bitOf x) (done t) y
  pc : ∀ t v, (s.th t).pc = .loaded v → ∃ y c os, (s.th t).calls = .set y c :: os ∧ s.arr[y / 8]? = some v

theorem inv_step {x : List Byte} {prog : Nat → List Op} (hf : Fair x prog)
    (hs : ∀ t u, t ≠ u → ∀ b, Changes (bitOf x) (prog t) b → ¬SetsByte (prog u) b) {s : St} {done : Nat → List Op} (h : Inv x prog s done) (t : Nat) :
    ∃ s' done', step s t = .ok s' ∧ Inv x prog s' done' := by
  cases hc : (s.th t).calls with
  | nil => exact ⟨s, done, step_nil hc, h⟩
  | cons o os =>
    have hmem : o ∈ prog t := by rw [h.split t, hc]; simp
    have hin := hf.inside t o hmem
    have hno : ∀ u, u ≠ t → ¬SetsBit (prog u) (index o) := fun u hu hb => hf.apart u t hu _ hb o hmem rfl
    cases o with
    | get y =>
      have hy : y < 8 * s.arr.length := by rw [h.len]; exact hin
      refine ⟨_, upd done t (done t ++ [.get y]), step_get hc hy, h.len, fun u => ?_, fun u => ?_, fun u z hz => ?_, fun u v hv => ?_⟩
      · by_cases e : u = t
        · subst e; simp only [upd_self]; rw [List.append_assoc, h.split u, hc]; rfl
        · simp only [upd_ne _ _ e]; exact h.split u
      · by_cases e : u = t
        · subst e; simp only [upd_self]; rw [answers_append, ← h.out u]
          simp only [answers]
          rw [h.bits u y hno]
        · simp only [upd_ne _ _ e]; exact h.out u
      · by_cases e : u = t
        · subst e; simp only [upd_self]; rw [final_append]; simp only [final]; exact h.bits u z hz
        · simp only [upd_ne _ _ e]; exact h.bits u z hz
      · by_cases e : u = t
        · subst e; simp only [upd_self] at hv; cases hv
        · simp only [upd_ne _ _ e] at hv ⊢; exact h.pc u v hv
    | set y c =>
      have hy : y / 8 < s.arr.length := by have : y < 8 * x.length := hin; rw [h.len]; omega
      cases hp : (s.th t).pc with
      | idle =>
        refine ⟨_, done, step_load hc hp hy, h.len, fun u => ?_, fun u => ?_, h.bits, fun u v hv => ?_⟩
        · by_cases e : u = t
          · subst e; simp only [upd_self]; rw [← hc]; exact h.split u
          · simp only [upd_ne _ _ e]; exact h.split u
        · by_cases e : u = t
          · subst e; simp only [upd_self]; exact h.out u
          · simp only [upd_ne _ _ e]; exact h.out u
        · by_cases e : u = t
          · subst e; simp only [upd_self] at hv ⊢
            cases hv
            exact ⟨y, c, os, rfl, List.getElem?_eq_getElem hy⟩
          · simp only [upd_ne _ _ e] at hv ⊢; exact h.pc u v hv
      | loaded v =>
        obtain ⟨y', c', os', e1, e2⟩ := h.pc t v hp
        rw [hc] at e1; cases e1
        have hbit : ∀ z, bitOf (s.arr.set (y / 8) (changed v y c)) z = if z = y then c else bitOf s.arr z := by
          intro z
          rw [bit_store (by have : y < 8 * x.length := hin; rw [h.len]; exact this)]
          by_cases e : z = y
          · rw [if_pos e, if_pos e]
          · rw [if_neg e, if_neg e]
            split
            · rename_i hz; exact (bit_of_byte (by rw [hz]; exact e2)).symm
            · rfl
        refine ⟨_, upd done t (done t ++ [.set y c]), step_store hc hp hy, by rw [← h.len]; exact List.length_set, fun u => ?_, fun u => ?_, fun u z hz => ?_,
          fun u w hw => ?_⟩
        · by_cases e : u = t
          · subst e; simp only [upd_self]; rw [List.append_assoc, h.split u, hc]; rfl
          · simp only [upd_ne _ _ e]; exact h.split u
        · by_cases e : u = t
          · subst e; simp only [upd_self]; rw [answers_append, ← h.out u]; simp [answers]
          · simp only [upd_ne _ _ e]; exact h.out u
        · dsimp only
          rw [hbit]
          by_cases e : u = t
          · subst e; simp only [upd_self]; rw [final_append]; simp only [final]
            split
            · rfl
            · exact h.bits u z hz
          · simp only [upd_ne _ _ e]
            rw [if_neg (fun he => hz t (fun h => e h.symm) ⟨c, by rw [he]; exact hmem⟩)]
            exact h.bits u z hz
        · by_cases e : u = t
          · subst e; simp only [upd_self] at hw; cases hw
          · simp only [upd_ne _ _ e] at hw ⊢
            obtain ⟨y2, c2, os2, f1, f2⟩ := h.pc u w hw
            refine ⟨y2, c2, os2, f1, ?_⟩
            by_cases hb : y2 / 8 = y / 8
            · have hset : SetsByte (prog u) (y / 8) := ⟨y2, hb, c2, by rw [h.split u, f1]; simp⟩
              have hnc : final (bitOf x) (done t) y = c := by
                by_contra hne
                exact hs t u (fun h => e h.symm) (y / 8) ⟨done t, y, c, os, by rw [h.split t, hc], rfl, hne⟩ hset
              have hbv : v.getLsbD (y % 8) = c := by rw [← bit_of_byte e2, h.bits t y hno]; exact hnc
              rw [changed_same hbv, hb, List.getElem?_set_self hy, ← f2, hb, e2]
            · rw [List.getElem?_set_ne (fun h => hb h.symm)]; exact f2

theorem inv_run {x : List Byte} {prog : Nat → List Op} (hf : Fair x prog)
    (hs : ∀ t u, t ≠ u → ∀ b, Changes (bitOf x) (prog t) b → ¬SetsByte (prog u) b) : ∀ {sched : List Nat} {s : St} {done : Nat → List Op},
    Inv x prog s done → ∃ s' done', run s sched = .ok s' ∧ Inv x prog s' done'
  | [], s, done, h => ⟨s, done, rfl, h⟩
  | t :: ts, s, done, h => by
    obtain ⟨s1, d1, e1, i1⟩ := inv_step hf hs h t
    obtain ⟨s2, d2, e2, i2⟩ := inv_run hf hs (sched := ts) i1
    exact ⟨s2, d2, by simp only [run, e1]; exact e2, i2⟩

/-! ### One thread at a time -/

theorem run_alone {t : Nat} : ∀ (pre : List Op) {s : St} {rest : List Op}, (s.th t).calls = pre ++ rest → (s.th t).pc = .idle →
    (∀ o ∈ pre, index o < 8 * s.arr.length) →
    ∃ sched s', run s sched = .ok s' ∧ s'.arr.length = s.arr.length ∧ (∀ y, bitOf s'.arr y = final (bitOf s.arr) pre y) ∧
      (s'.th t).calls = rest ∧ (s'.th t).pc = .idle ∧ ∀ u, u ≠ t → s'.th u = s.th u
  | [], s, rest, hc, hp, _ => ⟨[], s, rfl, rfl, fun _ => rfl, hc, hp, fun _ _ => rfl⟩
  | .get y :: pre, s, rest, hc, hp, hin => by
    have hy : y < 8 * s.arr.length := hin _ List.mem_cons_self
    have e1 := step_get hc hy
    obtain ⟨sched, s', r, a1, a2, a3, a4, a5⟩ := run_alone (t := t) pre (s := ⟨s.arr, upd s.th t ⟨pre ++ rest, .idle, (s.th t).out ++ [bitOf s.arr y]⟩⟩)
      (rest := rest) (by simp only [upd_self]) (by simp only [upd_self]) (fun o ho => hin o (List.mem_cons_of_mem _ ho))
    refine ⟨t :: sched, s', by simp only [run, e1]; exact r, a1, a2, a3, a4, fun u hu => ?_⟩
    rw [a5 u hu]; exact upd_ne _ _ hu
  | .set y c :: pre, s, rest, hc, hp, hin => by
    have hy : y < 8 * s.arr.length := hin _ List.mem_cons_self
    have e1 := step_load (os := pre ++ rest) hc hp (by omega)
    have e2 := step_store (s := ⟨s.arr, upd s.th t ⟨.set y c :: (pre ++ rest), .loaded s.arr[y / 8], (s.th t).out⟩⟩) (t := t) (y := y) (c := c) (os := pre ++ rest)
      (v := s.arr[y / 8]) (by simp only [upd_self]) (by simp only [upd_self]) (by dsimp only; omega)
    dsimp only at e2
    obtain ⟨sched, s', r, a1, a2, a3, a4, a5⟩ := run_alone (t := t) pre (s := ⟨s.arr.set (y / 8) (changed s.arr[y / 8] y c),
      upd (upd s.th t ⟨.set y c :: (pre ++ rest), .loaded s.arr[y / 8], (s.th t).out⟩) t ⟨pre ++ rest, .idle, (upd s.th t ⟨.set y c :: (pre ++ rest), .loaded s.arr[y / 8], (s.th t).out⟩ t).out⟩⟩)
      (rest := rest) (by simp only [upd_self]) (by simp only [upd_self]) (fun o ho => by dsimp only; rw [List.length_set]; exact hin o (List.mem_cons_of_mem _ ho))
    refine ⟨t :: t :: sched, s', by simp only [run, e1, ok_bindE, e2]; exact r, by rw [a1]; exact List.length_set, fun z => ?_, a3, a4, fun u hu => ?_⟩
    · rw [a2]
      simp only [final]
      congr 1
      funext w
      rw [bit_store hy]
      split
      · rfl
      · split
        · rename_i hw; exact (bit_of_byte (by rw [hw, List.getElem?_eq_getElem])).symm
        · rfl
    · rw [a5 u hu]; simp only [upd_ne _ _ hu]

end Ulz.Bashare

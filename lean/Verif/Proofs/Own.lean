import Verif.Model.Own
import Verif.Proofs.Life
set_option linter.unusedSimpArgs false
set_option linter.unusedVariables false
/-! Lemmas about the memory of type-generic lists and maps. -/
namespace Ulz.Own
open Ulz.Life (Mem alloc free Fresh alloc_spec free_spec)

/-- Permutations, compared by counting. -/
theorem perm_of {l l' : List Nat} (h : ∀ a, l.count a = l'.count a) : l.Perm l' := List.perm_iff_count.2 h

/-- The array of a list. -/
def arr (t : T) : List Nat := if t.arr = 0 then [] else [t.arr]

/-- A list whose array is among the allocated blocks. -/
structure TInv (m : Mem) (t : T) (base : List Nat) : Prop where
  perm : m.live.Perm (arr t ++ base)
  fresh : Fresh m
  le : t.vals.length ≤ t.capa
  null : t.arr = 0 ↔ t.capa = 0

theorem tgrow_spec (ok : Nat → Bool) {m : Mem} {t : T} {base : List Nat} (I : TInv m t base) :
    ∃ m' t' r, tgrow ok m t = .ok (m', t', r) ∧ TInv m' t' base ∧ t'.vals = t.vals ∧ (r = true → t'.vals.length < t'.capa) ∧
      (r = false → t' = t ∧ ok m.next = false ∧ t.vals.length = t.capa) ∧ (t.vals.length ≠ t.capa → m' = m ∧ t' = t) := by
  unfold tgrow
  have hle := I.le
  by_cases hc : t.vals.length = t.capa
  · rw [if_pos hc]
    unfold Life.realloc
    have hp := I.perm
    unfold arr at hp
    have hn : ¬(t.arr ≠ 0 ∧ t.arr ∉ m.live) := by
      rintro ⟨h1, h2⟩
      rw [if_neg h1] at hp
      exact h2 (hp.mem_iff.2 (by simp))
    rw [if_neg hn]
    cases hk : ok m.next with
    | true =>
      simp only [if_true, pure_eq_ok, ok_bind]
      rw [if_neg (by omega)]
      refine ⟨_, _, true, rfl, ⟨?_, (I.fresh.erase t.arr).cons, ?_, ?_⟩, rfl, ?_, by simp, by simp [hc]⟩
      · unfold arr
        simp only
        rw [if_neg (by omega)]
        refine List.Perm.cons _ ?_
        by_cases hi : t.arr = 0
        · rw [if_pos hi] at hp
          have : m.live.erase t.arr = m.live := by
            apply List.erase_of_not_mem
            rw [hi]
            intro h
            exact absurd (I.fresh.le 0 h).1 (by omega)
          rw [this]
          simpa using hp
        · rw [if_neg hi] at hp
          exact Life.perm_erase hp
      · simp only
        split <;> omega
      · simp only
        split <;> omega
      · intro _
        simp only
        split <;> omega
    | false =>
      simp only [Bool.false_eq_true, if_false, pure_eq_ok, ok_bind, if_true]
      exact ⟨_, _, false, rfl, ⟨I.perm, I.fresh.skip, I.le, I.null⟩, rfl, by simp, fun _ => ⟨rfl, trivial, hc⟩, fun h => absurd hc h⟩
  · rw [if_neg hc]
    exact ⟨m, t, true, rfl, I, rfl, fun _ => by omega, by simp, fun _ => ⟨rfl, rfl⟩⟩

theorem TInv.mono {m : Mem} {t : T} {base base' : List Nat} (I : TInv m t base) (h : base.Perm base') : TInv m t base' :=
  ⟨I.perm.trans (h.append_left _), I.fresh, I.le, I.null⟩

theorem tadd_spec (ok : Nat → Bool) {m : Mem} {t : T} {base : List Nat} (I : TInv m t base) (x : Nat) :
    ∃ m' t' r, tadd ok m t x = .ok (m', t', r) ∧ TInv m' t' base ∧ t'.vals = (if r then t.vals ++ [x] else t.vals) := by
  obtain ⟨m', t', r, e, I', hv, hl, hf, _⟩ := tgrow_spec ok I
  unfold tadd
  rw [e]
  simp only [ok_bind]
  cases r with
  | true =>
    have := hl rfl
    exact ⟨_, _, true, rfl, ⟨I'.perm, I'.fresh, by simp; omega, I'.null⟩, by simp [hv]⟩
  | false => exact ⟨_, _, false, rfl, I', by simp [hv]⟩

theorem tinsert_spec (ok : Nat → Bool) {m : Mem} {t : T} {base : List Nat} (I : TInv m t base) (x : Nat) {p : Nat} (hp : p ≤ t.vals.length) :
    ∃ m' t' r, tinsert ok m t x p = .ok (m', t', r) ∧ TInv m' t' base ∧
      t'.vals = (if r then t.vals.take p ++ x :: t.vals.drop p else t.vals) := by
  obtain ⟨m', t', r, e, I', hv, hl, hf, _⟩ := tgrow_spec ok I
  unfold tinsert
  rw [if_neg (by omega), e]
  simp only [ok_bind]
  cases r with
  | true =>
    have := hl rfl
    refine ⟨_, _, true, rfl, ⟨I'.perm, I'.fresh, ?_, I'.null⟩, by simp [hv]⟩
    rw [hv] at this ⊢
    simp
    omega
  | false => exact ⟨_, _, false, rfl, I', by simp [hv]⟩

theorem tdel_spec {m : Mem} {t : T} {base : List Nat} (I : TInv m t base) {i : Nat} (hi : i < t.vals.length) :
    ∃ t', tdel t i = .ok t' ∧ TInv m t' base ∧ t'.vals = t.vals.eraseIdx i := by
  unfold tdel
  rw [if_pos hi]
  refine ⟨_, rfl, ⟨I.perm, I.fresh, ?_, I.null⟩, rfl⟩
  have := I.le
  show (t.vals.eraseIdx i).length ≤ t.capa
  rw [List.length_eraseIdx]
  split <;> omega

theorem tset_spec {m : Mem} {t : T} {base : List Nat} (I : TInv m t base) (x : Nat) {i : Nat} (hi : i < t.vals.length) :
    ∃ t', tset t x i = .ok t' ∧ TInv m t' base ∧ t'.vals = t.vals.set i x := by
  unfold tset
  rw [if_pos hi]
  exact ⟨_, rfl, ⟨I.perm, I.fresh, by simpa using I.le, I.null⟩, rfl⟩

theorem tget_spec {t : T} {i : Nat} (hi : i < t.vals.length) : tget t i = .ok t.vals[i] := by
  unfold tget
  rw [List.getElem?_eq_getElem hi]
  rfl

/-! ### Counting -/

theorem count_eraseIdx {l : List Nat} {i : Nat} (hi : i < l.length) (a : Nat) :
    l.count a = (l.eraseIdx i).count a + (if l[i] == a then 1 else 0) := by
  have h : l.count a = (l.take i).count a + (l.drop i).count a := by
    rw [← List.count_append, List.take_append_drop]
  rw [h, List.drop_eq_getElem_cons hi, List.count_cons, List.eraseIdx_eq_take_drop_succ, List.count_append]
  omega

theorem count_insert {l : List Nat} {p x : Nat} (a : Nat) :
    (l.take p ++ x :: l.drop p).count a = l.count a + (if x == a then 1 else 0) := by
  have h : l.count a = (l.take p).count a + (l.drop p).count a := by
    rw [← List.count_append, List.take_append_drop]
  rw [List.count_append, List.count_cons, h]
  omega

theorem count_set {l : List Nat} {i x : Nat} (hi : i < l.length) (a : Nat) :
    (l.set i x).count a + (if l[i] == a then 1 else 0) = l.count a + (if x == a then 1 else 0) := by
  have h1 := count_eraseIdx hi a
  have h2 := count_eraseIdx (l := l.set i x) (i := i) (by simpa using hi) a
  simp only [List.getElem_set_self, List.eraseIdx_set_eq] at h2
  omega

/-! ### Freeing -/

theorem Fresh.ne_zero {m : Mem} (h : Fresh m) {p : Nat} {r : List Nat} (hp : m.live.Perm (p :: r)) : p ≠ 0 := by
  have := (h.le p (hp.mem_iff.2 (by simp))).1
  omega

theorem freeAll_spec : ∀ (xs : List Nat) {m : Mem} {r : List Nat}, Fresh m → m.live.Perm (xs ++ r) →
    ∃ m', freeAll m xs = .ok m' ∧ m'.live.Perm r ∧ Fresh m'
  | [], m, r, hf, hp => ⟨m, rfl, by simpa using hp, hf⟩
  | x :: xs, m, r, hf, hp => by
    obtain ⟨m1, e1, p1, f1⟩ := free_spec (p := x) (r := xs ++ r) (by simpa using hp) (Fresh.ne_zero hf (by simpa using hp)) hf
    obtain ⟨m2, e2, p2, f2⟩ := freeAll_spec xs f1 p1
    exact ⟨m2, by simp only [freeAll, e1, ok_bind, e2], p2, f2⟩

theorem tfreeValues_spec {m : Mem} {t : T} {base : List Nat} (I : TInv m t (t.vals ++ base)) :
    ∃ m' t', tfreeValues m t = .ok (m', t') ∧ TInv m' t' base := by
  unfold tfreeValues
  obtain ⟨m', e, p, f⟩ := freeAll_spec t.vals.reverse (m := m) (r := arr t ++ base) I.fresh (I.perm.trans (perm_of fun a => by
    simp only [List.count_append, List.count_reverse]
    omega))
  rw [e]
  exact ⟨m', _, rfl, ⟨p, f, by simp, I.null⟩⟩

theorem tfreeItems_spec {m : Mem} {t : T} {base : List Nat} (I : TInv m t base) :
    ∃ m', tfreeItems m t = .ok m' ∧ m'.live.Perm base ∧ Fresh m' := by
  unfold tfreeItems
  have hp := I.perm
  unfold arr at hp
  by_cases h0 : t.arr = 0
  · rw [if_pos h0] at hp
    unfold free
    rw [if_pos h0]
    exact ⟨m, rfl, by simpa using hp, I.fresh⟩
  · rw [if_neg h0] at hp
    exact free_spec (by simpa using hp) h0 I.fresh

/-! ### Blocks besides a list -/

theorem TInv.alloc {m : Mem} {t : T} {base : List Nat} (I : TInv m t base) (ok : Nat → Bool) :
    (∃ m', alloc ok m = (m', 0) ∧ ok m.next = false ∧ TInv m' t base) ∨ (∃ m' x, alloc ok m = (m', x) ∧ x ≠ 0 ∧ TInv m' t (x :: base)) := by
  rcases alloc_spec ok I.fresh with ⟨_, h2, h3⟩ | ⟨h1, h2, h3⟩
  · right
    rw [h2] at h3 ⊢
    refine ⟨_, _, rfl, by omega, ⟨?_, h3, I.le, I.null⟩⟩
    exact (I.perm.cons _).trans (perm_of fun a => by simp only [List.count_append, List.count_cons]; omega)
  · left
    rw [h2] at h3 ⊢
    exact ⟨_, rfl, h1, ⟨I.perm, h3, I.le, I.null⟩⟩

theorem TInv.free {m : Mem} {t : T} {base : List Nat} {x : Nat} (I : TInv m t (x :: base)) :
    ∃ m', free m x = .ok m' ∧ TInv m' t base := by
  have hp : m.live.Perm (x :: (arr t ++ base)) := I.perm.trans (perm_of fun a => by
    simp only [List.count_append, List.count_cons]; omega)
  obtain ⟨m', e, p, f⟩ := free_spec hp (Fresh.ne_zero I.fresh hp) I.fresh
  exact ⟨m', e, ⟨p, f, I.le, I.null⟩⟩

/-- Rearranging blocks. -/
macro "counting" : tactic => `(tactic| (apply perm_of; intro a; simp only [List.count_append, List.count_cons, List.count_nil]; omega))

theorem step_spec (ok : Nat → Bool) {m : Mem} {t : T} {base : List Nat} (I : TInv m t (t.vals ++ base)) (op : Op) :
    ∃ m' t', step ok m t op = .ok (m', t') ∧ TInv m' t' (t'.vals ++ base) := by
  cases op with
  | add =>
    rcases I.alloc ok with ⟨m1, e1, _, I1⟩ | ⟨m1, x, e1, hx, I1⟩
    · simp only [step, e1, if_true]
      exact ⟨_, _, rfl, I1⟩
    · obtain ⟨m2, t2, r, e2, I2, hv⟩ := tadd_spec ok I1 x
      simp only [step, e1, hx, if_false, e2, ok_bind]
      cases r with
      | true =>
        refine ⟨_, _, rfl, I2.mono ?_⟩
        rw [hv]
        simp only [if_true]
        counting
      | false =>
        obtain ⟨m3, e3, I3⟩ := I2.free
        simp only [Bool.false_eq_true, if_false, e3, ok_bind] at hv ⊢
        exact ⟨_, _, rfl, by rw [hv]; exact I3⟩
  | insert p =>
    by_cases hp : t.vals.length < p
    · simp only [step, hp, if_true]
      exact ⟨_, _, rfl, I⟩
    rcases I.alloc ok with ⟨m1, e1, _, I1⟩ | ⟨m1, x, e1, hx, I1⟩
    · simp only [step, hp, if_false, e1, if_true]
      exact ⟨_, _, rfl, I1⟩
    · obtain ⟨m2, t2, r, e2, I2, hv⟩ := tinsert_spec ok I1 x (p := p) (by omega)
      simp only [step, hp, e1, hx, if_false, e2, ok_bind]
      cases r with
      | true =>
        refine ⟨_, _, rfl, I2.mono ?_⟩
        rw [hv]
        simp only [if_true]
        apply perm_of
        intro a
        simp only [List.count_append, List.count_cons]
        have := count_insert (l := t.vals) (p := p) (x := x) a
        simp only [List.count_append, List.count_cons] at this
        omega
      | false =>
        obtain ⟨m3, e3, I3⟩ := I2.free
        simp only [Bool.false_eq_true, if_false, e3, ok_bind] at hv ⊢
        exact ⟨_, _, rfl, by rw [hv]; exact I3⟩
  | del i =>
    by_cases hi : i < t.vals.length
    · have I1 : TInv m t (t.vals[i] :: (t.vals.eraseIdx i ++ base)) := I.mono (perm_of fun a => by
        have := count_eraseIdx hi a
        simp only [List.count_append, List.count_cons]; omega)
      obtain ⟨m2, e2, I2⟩ := I1.free
      obtain ⟨t3, e3, I3, hv⟩ := tdel_spec I2 hi
      simp only [step, hi, if_true, tget_spec hi, ok_bind, e2, e3]
      exact ⟨_, _, rfl, by rw [hv]; exact I3⟩
    · simp only [step, hi, if_false]
      exact ⟨_, _, rfl, I⟩

theorem run_spec (ok : Nat → Bool) : ∀ (ops : List Op) {m : Mem} {t : T} {base : List Nat}, TInv m t (t.vals ++ base) →
    ∃ m' t', run ok m t ops = .ok (m', t') ∧ TInv m' t' (t'.vals ++ base)
  | [], m, t, base, I => ⟨m, t, rfl, I⟩
  | op :: ops, m, t, base, I => by
    obtain ⟨m1, t1, e1, I1⟩ := step_spec ok I op
    obtain ⟨m2, t2, e2, I2⟩ := run_spec ok ops I1
    exact ⟨m2, t2, by simp only [run, e1, ok_bind, e2], I2⟩

theorem tinit_inv {m : Mem} (h : Fresh m) : TInv m tinit m.live := ⟨by simp [arr, tinit], h, by simp [tinit], by simp [tinit]⟩

/-! ### Two lists -/

/-- Two lists whose arrays are among the allocated blocks. -/
structure PInv (m : Mem) (t u : T) (rest : List Nat) : Prop where
  inv : TInv m t (arr u ++ rest)
  le : u.vals.length ≤ u.capa
  null : u.arr = 0 ↔ u.capa = 0

theorem PInv.symm {m : Mem} {t u : T} {rest : List Nat} (I : PInv m t u rest) : PInv m u t rest :=
  ⟨⟨I.inv.perm.trans (by counting), I.inv.fresh, I.le, I.null⟩, I.inv.le, I.inv.null⟩

theorem PInv.mono {m : Mem} {t u : T} {rest rest' : List Nat} (I : PInv m t u rest) (h : rest.Perm rest') : PInv m t u rest' :=
  ⟨I.inv.mono (h.append_left _), I.le, I.null⟩

theorem PInv.alloc {m : Mem} {t u : T} {rest : List Nat} (I : PInv m t u rest) (ok : Nat → Bool) :
    (∃ m', alloc ok m = (m', 0) ∧ ok m.next = false ∧ PInv m' t u rest) ∨ (∃ m' x, alloc ok m = (m', x) ∧ x ≠ 0 ∧ PInv m' t u (x :: rest)) := by
  rcases I.inv.alloc ok with ⟨m', e, h, I'⟩ | ⟨m', x, e, h, I'⟩
  · exact .inl ⟨m', e, h, ⟨I', I.le, I.null⟩⟩
  · exact .inr ⟨m', x, e, h, ⟨I'.mono (by counting), I.le, I.null⟩⟩

theorem PInv.free {m : Mem} {t u : T} {rest : List Nat} {x : Nat} (I : PInv m t u (x :: rest)) :
    ∃ m', free m x = .ok m' ∧ PInv m' t u rest := by
  obtain ⟨m', e, I'⟩ := (I.inv.mono (base' := x :: (arr u ++ rest)) (by counting)).free
  exact ⟨m', e, ⟨I', I.le, I.null⟩⟩

theorem PInv.add (ok : Nat → Bool) {m : Mem} {t u : T} {rest : List Nat} (I : PInv m t u rest) (x : Nat) :
    ∃ m' t' r, tadd ok m t x = .ok (m', t', r) ∧ PInv m' t' u rest ∧ t'.vals = (if r then t.vals ++ [x] else t.vals) := by
  obtain ⟨m', t', r, e, I', h⟩ := tadd_spec ok I.inv x
  exact ⟨m', t', r, e, ⟨I', I.le, I.null⟩, h⟩

theorem PInv.insert (ok : Nat → Bool) {m : Mem} {t u : T} {rest : List Nat} (I : PInv m t u rest) (x : Nat) {p : Nat} (hp : p ≤ t.vals.length) :
    ∃ m' t' r, tinsert ok m t x p = .ok (m', t', r) ∧ PInv m' t' u rest ∧
      t'.vals = (if r then t.vals.take p ++ x :: t.vals.drop p else t.vals) := by
  obtain ⟨m', t', r, e, I', h⟩ := tinsert_spec ok I.inv x hp
  exact ⟨m', t', r, e, ⟨I', I.le, I.null⟩, h⟩

theorem PInv.del {m : Mem} {t u : T} {rest : List Nat} (I : PInv m t u rest) {i : Nat} (hi : i < t.vals.length) :
    ∃ t', tdel t i = .ok t' ∧ PInv m t' u rest ∧ t'.vals = t.vals.eraseIdx i := by
  obtain ⟨t', e, I', h⟩ := tdel_spec I.inv hi
  exact ⟨t', e, ⟨I', I.le, I.null⟩, h⟩

theorem PInv.freeBoth {m : Mem} {t u : T} {rest : List Nat} (I : PInv m t u rest) :
    ∃ m1 m2, tfreeItems m t = .ok m1 ∧ tfreeItems m1 u = .ok m2 ∧ m2.live.Perm rest ∧ Fresh m2 := by
  obtain ⟨m1, e1, p1, f1⟩ := tfreeItems_spec I.inv
  obtain ⟨m2, e2, p2, f2⟩ := tfreeItems_spec (t := u) ⟨p1, f1, I.le, I.null⟩
  exact ⟨m1, m2, e1, e2, p2, f2⟩

theorem PInv.freeValues {m : Mem} {t u : T} {rest : List Nat} (I : PInv m t u (t.vals ++ rest)) :
    ∃ m' t', tfreeValues m t = .ok (m', t') ∧ PInv m' t' u rest := by
  obtain ⟨m', t', e, I'⟩ := tfreeValues_spec (I.inv.mono (base' := t.vals ++ (arr u ++ rest)) (by counting))
  exact ⟨m', t', e, ⟨I', I.le, I.null⟩⟩

/-! ### tgilist -/

theorem istep_spec (ok : Nat → Bool) {m : Mem} {t : TI} {base : List Nat} (I : PInv m t.index t.items (t.items.vals ++ base)) (op : Op) :
    ∃ m' t', istep ok m t op = .ok (m', t') ∧ PInv m' t'.index t'.items (t'.items.vals ++ base) := by
  cases op with
  | add =>
    rcases I.alloc ok with ⟨m1, e1, _, I1⟩ | ⟨m1, x, e1, hx, I1⟩
    · simp only [istep, e1, if_true]
      exact ⟨_, _, rfl, I1⟩
    · obtain ⟨m2, ix, r, e2, I2, hv⟩ := I1.add ok t.items.vals.length
      simp only [istep, e1, hx, if_false, iadd, e2, ok_bind]
      cases r with
      | false =>
        obtain ⟨m3, e3, I3⟩ := I2.free
        simp only [Bool.false_eq_true, if_false, pure_eq_ok, ok_bind, e3]
        exact ⟨_, _, rfl, I3⟩
      | true =>
        obtain ⟨m3, it, r, e3, I3, hw⟩ := I2.symm.add ok x
        simp only [if_true, e3, ok_bind]
        cases r with
        | true =>
          simp only [if_true, pure_eq_ok, ok_bind]
          refine ⟨_, _, rfl, I3.symm.mono ?_⟩
          simp only [hw, if_true]
          counting
        | false =>
          simp only [if_true] at hv
          obtain ⟨ix', e4, I4, _⟩ := I3.symm.del (i := ix.vals.length - 1) (by rw [hv]; simp)
          obtain ⟨m5, e5, I5⟩ := I4.free
          simp only [Bool.false_eq_true, if_false, e4, pure_eq_ok, ok_bind, e5] at hw ⊢
          exact ⟨_, _, rfl, by simp only [hw]; exact I5⟩
  | insert p =>
    by_cases hp : t.index.vals.length < p
    · simp only [istep, hp, if_true]
      exact ⟨_, _, rfl, I⟩
    rcases I.alloc ok with ⟨m1, e1, _, I1⟩ | ⟨m1, x, e1, hx, I1⟩
    · simp only [istep, hp, if_false, e1, if_true]
      exact ⟨_, _, rfl, I1⟩
    · obtain ⟨m2, it, r, e2, I2, hw⟩ := I1.symm.add ok x
      simp only [istep, hp, e1, hx, if_false, iinsert, e2, ok_bind]
      cases r with
      | false =>
        obtain ⟨m3, e3, I3⟩ := I2.free
        simp only [Bool.false_eq_true, if_false, pure_eq_ok, ok_bind, e3] at hw ⊢
        exact ⟨_, _, rfl, by simp only [hw]; exact I3.symm⟩
      | true =>
        obtain ⟨m3, ix, r, e3, I3, hv⟩ := I2.symm.insert ok (it.vals.length - 1) (p := p) (by omega)
        simp only [if_true, e3, ok_bind] at hw ⊢
        cases r with
        | true =>
          simp only [if_true, pure_eq_ok, ok_bind]
          refine ⟨_, _, rfl, I3.mono ?_⟩
          simp only [hw]
          counting
        | false =>
          obtain ⟨m5, e5, I5⟩ := I3.free
          simp only [Bool.false_eq_true, if_false, pure_eq_ok, ok_bind, e5]
          refine ⟨_, _, rfl, ?_⟩
          have hd : it.vals.dropLast = t.items.vals := by rw [hw]; simp
          simp only [hd]
          have := I5.le
          rw [hw] at this
          simp only [List.length_append, List.length_cons] at this
          exact ⟨I5.inv, by simp only; omega, I5.null⟩
  | del i =>
    by_cases hi : i < t.index.vals.length
    · obtain ⟨ix, e3, I3, hv⟩ := I.del hi
      simp only [istep, hi, if_true, idel, e3, ok_bind, pure_eq_ok]
      exact ⟨_, _, rfl, I3⟩
    · simp only [istep, hi, if_false]
      exact ⟨_, _, rfl, I⟩

theorem irun_spec (ok : Nat → Bool) : ∀ (ops : List Op) {m : Mem} {t : TI} {base : List Nat}, PInv m t.index t.items (t.items.vals ++ base) →
    ∃ m' t', irun ok m t ops = .ok (m', t') ∧ PInv m' t'.index t'.items (t'.items.vals ++ base)
  | [], m, t, base, I => ⟨m, t, rfl, I⟩
  | op :: ops, m, t, base, I => by
    obtain ⟨m1, t1, e1, I1⟩ := istep_spec ok I op
    obtain ⟨m2, t2, e2, I2⟩ := irun_spec ok ops I1
    exact ⟨m2, t2, by simp only [irun, e1, ok_bind, e2], I2⟩

theorem init_pinv {m : Mem} (h : Fresh m) : PInv m tinit tinit m.live := 
  ⟨⟨by simp [arr, tinit], h, by simp [tinit], by simp [tinit]⟩, by simp [tinit], by simp [tinit]⟩

/-- Every entry of the index refers to a value. -/
def IdxOk (t : TI) : Prop := ∀ x ∈ t.index.vals, x < t.items.vals.length

theorem tgrow_vals {ok : Nat → Bool} {m m' : Mem} {t t' : T} {r : Bool} (h : tgrow ok m t = .ok (m', t', r)) : t'.vals = t.vals := by
  unfold tgrow at h
  split at h
  · cases hr : Life.realloc ok m t.arr with
    | error e => rw [hr] at h; cases h
    | ok q =>
      rw [hr] at h
      simp only [ok_bind] at h
      split at h <;> cases h <;> rfl
  · cases h; rfl

theorem tadd_vals {ok : Nat → Bool} {m m' : Mem} {t t' : T} {x : Nat} {r : Bool} (h : tadd ok m t x = .ok (m', t', r)) :
    t'.vals = if r then t.vals ++ [x] else t.vals := by
  unfold tadd at h
  cases hg : tgrow ok m t with
  | error e => rw [hg] at h; cases h
  | ok q =>
    obtain ⟨m1, t1, r1⟩ := q
    have := tgrow_vals hg
    rw [hg] at h
    simp only [ok_bind] at h
    cases r1 <;> cases h <;> simp [this]

theorem tinsert_vals {ok : Nat → Bool} {m m' : Mem} {t t' : T} {x p : Nat} {r : Bool} (h : tinsert ok m t x p = .ok (m', t', r)) :
    t'.vals = if r then t.vals.take p ++ x :: t.vals.drop p else t.vals := by
  unfold tinsert at h
  split at h
  · cases h
  cases hg : tgrow ok m t with
  | error e => rw [hg] at h; cases h
  | ok q =>
    obtain ⟨m1, t1, r1⟩ := q
    have := tgrow_vals hg
    rw [hg] at h
    simp only [ok_bind] at h
    cases r1 <;> cases h <;> simp [this]

theorem iadd_idx {ok : Nat → Bool} {m m' : Mem} {t t' : TI} {x : Nat} {r : Bool} (h : iadd ok m t x = .ok (m', t', r)) (hi : IdxOk t) :
    IdxOk t' := by
  unfold iadd at h
  cases h1 : tadd ok m t.index t.items.vals.length with
  | error e => rw [h1] at h; cases h
  | ok q =>
    obtain ⟨m1, ix, r1⟩ := q
    have v1 := tadd_vals h1
    rw [h1] at h
    simp only [ok_bind] at h
    cases r1 with
    | false =>
      cases h
      intro y hy
      simp only [v1, Bool.false_eq_true, if_false] at hy
      exact hi y hy
    | true =>
      simp only [if_true] at h v1
      cases h2 : tadd ok m1 t.items x with
      | error e => rw [h2] at h; cases h
      | ok q =>
        obtain ⟨m2, it, r2⟩ := q
        have v2 := tadd_vals h2
        rw [h2] at h
        simp only [ok_bind] at h
        cases r2 with
        | true =>
          cases h
          intro y hy
          simp only [v1, v2, if_true, List.mem_append, List.mem_singleton, List.length_append, List.length_singleton] at hy ⊢
          rcases hy with hy | rfl
          · have := hi y hy; omega
          · omega
        | false =>
          simp only [Bool.false_eq_true, if_false, tdel, v1, v2] at h
          rw [if_pos (by simp)] at h
          cases h
          intro y hy
          simp only [List.length_append, List.length_singleton, Nat.add_sub_cancel] at hy
          rw [List.eraseIdx_append_of_length_le (Nat.le_refl _)] at hy
          simp only [v2, Bool.false_eq_true, if_false]
          simp at hy
          exact hi y hy

theorem iinsert_idx {ok : Nat → Bool} {m m' : Mem} {t t' : TI} {x p : Nat} {r : Bool} (h : iinsert ok m t x p = .ok (m', t', r)) (hi : IdxOk t) :
    IdxOk t' := by
  unfold iinsert at h
  cases h1 : tadd ok m t.items x with
  | error e => rw [h1] at h; cases h
  | ok q =>
    obtain ⟨m1, it, r1⟩ := q
    have v1 := tadd_vals h1
    rw [h1] at h
    simp only [ok_bind] at h
    cases r1 with
    | false =>
      cases h
      intro y hy
      simp only [v1, Bool.false_eq_true, if_false]
      exact hi y hy
    | true =>
      simp only [if_true] at h v1
      cases h2 : tinsert ok m1 t.index (it.vals.length - 1) p with
      | error e => rw [h2] at h; cases h
      | ok q =>
        obtain ⟨m2, ix, r2⟩ := q
        have v2 := tinsert_vals h2
        rw [h2] at h
        simp only [ok_bind] at h
        cases r2 with
        | true =>
          cases h
          intro y hy
          simp only [v1, v2, if_true, List.mem_append, List.mem_cons, List.length_append, List.length_singleton] at hy ⊢
          rcases hy with hy | rfl | hy
          · have := hi y (List.mem_of_mem_take hy); omega
          · omega
          · have := hi y (List.mem_of_mem_drop hy); omega
        | false =>
          cases h
          intro y hy
          simp only [v1, v2, Bool.false_eq_true, if_false, List.dropLast_concat] at hy ⊢
          exact hi y hy

theorem istep_idx {ok : Nat → Bool} {m m' : Mem} {t t' : TI} {op : Op} (h : istep ok m t op = .ok (m', t')) (hi : IdxOk t) : IdxOk t' := by
  cases op with
  | add =>
    simp only [istep] at h
    split at h
    · cases h; exact hi
    · cases h1 : iadd ok (alloc ok m).1 t (alloc ok m).2 with
      | error e => rw [h1] at h; cases h
      | ok q =>
        obtain ⟨m1, t1, r⟩ := q
        have := iadd_idx h1 hi
        rw [h1] at h
        simp only [ok_bind] at h
        cases r with
        | true => cases h; exact this
        | false =>
          cases h2 : free m1 (alloc ok m).2 with
          | error e => rw [h2] at h; cases h
          | ok q => rw [h2] at h; cases h; exact this
  | insert p =>
    simp only [istep] at h
    split at h
    · cases h; exact hi
    split at h
    · cases h; exact hi
    · cases h1 : iinsert ok (alloc ok m).1 t (alloc ok m).2 p with
      | error e => rw [h1] at h; cases h
      | ok q =>
        obtain ⟨m1, t1, r⟩ := q
        have := iinsert_idx h1 hi
        rw [h1] at h
        simp only [ok_bind] at h
        cases r with
        | true => cases h; exact this
        | false =>
          cases h2 : free m1 (alloc ok m).2 with
          | error e => rw [h2] at h; cases h
          | ok q => rw [h2] at h; cases h; exact this
  | del i =>
    simp only [istep] at h
    split at h
    · rename_i hl
      simp only [idel, tdel, if_pos hl] at h
      cases h
      intro y hy
      exact hi y (List.mem_of_mem_eraseIdx hy)
    · cases h; exact hi

theorem irun_idx (ok : Nat → Bool) : ∀ (ops : List Op) {m m' : Mem} {t t' : TI}, irun ok m t ops = .ok (m', t') → IdxOk t → IdxOk t'
  | [], m, m', t, t', h, hi => by cases h; exact hi
  | op :: ops, m, m', t, t', h, hi => by
    simp only [irun] at h
    cases h1 : istep ok m t op with
    | error e => rw [h1] at h; cases h
    | ok q =>
      obtain ⟨m1, t1⟩ := q
      rw [h1] at h
      exact irun_idx ok ops h (istep_idx h1 hi)

/-- Freeing several blocks one of which is not allocated. -/
theorem freeAll_bad : ∀ (xs : List Nat) {m : Mem} {p : Nat}, p ∈ xs → p ≠ 0 → p ∉ m.live → freeAll m xs = .error .badFree
  | x :: xs, m, p, hp, h0, hn => by
    unfold freeAll
    by_cases hx : x = p
    · subst hx
      unfold free
      rw [if_neg h0, if_neg hn]
      rfl
    · have hp' : p ∈ xs := by
        rcases List.mem_cons.1 hp with h | h
        · exact absurd h.symm hx
        · exact h
      unfold free
      split
      · exact freeAll_bad xs hp' h0 hn
      · split
        · exact freeAll_bad xs (m := { m with live := m.live.erase x }) hp' h0 (fun h => hn (List.mem_of_mem_erase h))
        · rfl

/-! ### bmap -/

/-- A map whose keys and values are owned blocks, besides `lost` (owned by nobody) and `base`. -/
structure BInv (m : Mem) (b : B) (rest : List Nat) : Prop where
  inv : PInv m b.keys b.values (b.keys.vals ++ b.values.vals ++ rest)
  len : b.keys.vals.length = b.values.vals.length

/-- Outcome of an insertion with the blocks `k` and `v` still owned by the program before. -/
theorem nocheck_spec (ok : Nat → Bool) {m : Mem} {b : B} {rest : List Nat} {k v : Nat} (I : BInv m b (k :: v :: rest)) {p : Nat}
    (hp : p ≤ b.keys.vals.length) :
    ∃ m' b' r ss, insert_nocheck ok m b k v p = .ok (m', b', r, ss) ∧
      (r = none → BInv m' b' (k :: v :: rest) ∧ b'.keys.vals.length = b.keys.vals.length) ∧
      (∀ i, r = some i → BInv m' b' rest ∧ b'.keys.vals.length = b.keys.vals.length + 1) ∧
      (ss = none → r = none) := by
  have hl := I.len
  obtain ⟨m1, ks, r1, e1, I1, h1⟩ := I.inv.insert ok k hp
  unfold insert_nocheck
  rw [e1]
  simp only [ok_bind]
  cases r1 with
  | false =>
    simp only [Bool.false_eq_true, if_false] at h1 ⊢
    refine ⟨_, _, none, none, rfl, fun _ => ⟨⟨?_, ?_⟩, ?_⟩, by simp, by simp⟩
    · simp only [h1]; exact I1
    · simp only [h1]; exact hl
    · simp only [h1]
  | true =>
    simp only [if_true] at h1 ⊢
    obtain ⟨m2, vs, r2, e2, I2, h2⟩ := I1.symm.insert ok v (p := p) (by omega)
    rw [e2]
    simp only [ok_bind]
    cases r2 with
    | true =>
      simp only [if_true] at h2 ⊢
      refine ⟨_, _, _, _, rfl, by simp, fun i _ => ⟨⟨I2.symm.mono ?_, ?_⟩, ?_⟩, by simp⟩
      · simp only [h1, h2]
        apply perm_of
        intro a
        have c1 := count_insert (l := b.keys.vals) (p := p) (x := k) a
        have c2 := count_insert (l := b.values.vals) (p := p) (x := v) a
        simp only [List.count_append, List.count_cons] at c1 c2 ⊢
        omega
      · simp only [h1, h2, List.length_append, List.length_cons, List.length_take, List.length_drop]; omega
      · simp only [h1, List.length_append, List.length_cons, List.length_take, List.length_drop]; omega
    | false =>
      simp only [Bool.false_eq_true, if_false] at h2 ⊢
      have hpl : p < ks.vals.length := by
        rw [h1]; simp only [List.length_append, List.length_cons, List.length_take, List.length_drop]; omega
      obtain ⟨ks', e3, I3, h3⟩ := I2.symm.del hpl
      have hk : ks'.vals = b.keys.vals := by
        rw [h3, h1, List.eraseIdx_append_of_length_le (by rw [List.length_take]; omega)]
        simp [Nat.min_eq_left hp]
      rw [e3]
      simp only [ok_bind]
      refine ⟨_, _, none, some p, rfl, fun _ => ⟨⟨?_, ?_⟩, ?_⟩, by simp, by simp⟩
      · simp only [hk, h2]; exact I3
      · simp only [hk, h2]; exact hl
      · simp only [hk]

/-- What the program relies on: a result other than -1 takes the blocks over, -1 does not. `extra` counts blocks that are taken over by
    nobody. -/
def InsOk (lossy : Bool) (ins : (Nat → Bool) → Mem → B → Nat → Nat → Nat → C (Mem × B × Option Nat)) : Prop :=
  ∀ ok m b rest k v p, BInv m b (k :: v :: rest) → p ≤ b.keys.vals.length →
    ∃ m' b' r, ins ok m b k v p = .ok (m', b', r) ∧
      ((r = none ∧ BInv m' b' (k :: v :: rest) ∧ b'.keys.vals.length = b.keys.vals.length) ∨
       (∃ i, r = some i ∧ BInv m' b' rest ∧ b'.keys.vals.length = b.keys.vals.length + 1) ∨
       (lossy = true ∧ (∃ i, r = some i) ∧ BInv m' b' (k :: v :: rest) ∧ b'.keys.vals.length = b.keys.vals.length))

theorem insOk_nocheck : InsOk false viaNocheck := by
  intro ok m b rest k v p I hp
  obtain ⟨m', b', r, ss, e, h1, h2, _⟩ := nocheck_spec ok I hp
  unfold viaNocheck
  rw [e]
  refine ⟨m', b', r, rfl, ?_⟩
  cases r with
  | none => exact .inl ⟨rfl, h1 rfl⟩
  | some i => exact .inr (.inl ⟨i, rfl, h2 i rfl⟩)

theorem insOk_insert : InsOk true insert_new := by
  intro ok m b rest k v p I hp
  obtain ⟨m', b', r, ss, e, h1, h2, h3⟩ := nocheck_spec ok I hp
  unfold insert_new
  rw [e]
  refine ⟨m', b', ss, rfl, ?_⟩
  cases ss with
  | none => exact .inl ⟨rfl, h1 (h3 rfl)⟩
  | some i =>
    cases r with
    | none => exact .inr (.inr ⟨rfl, ⟨i, rfl⟩, h1 rfl⟩)
    | some j => exact .inr (.inl ⟨i, rfl, h2 j rfl⟩)

/-- The state of the program: `lost` blocks are allocated but in nobody's hands, two for each entry the program thinks the map has but
    which it has not. -/
structure MInv (lossy : Bool) (m : Mem) (b : B) (n : Nat) (lost base : List Nat) : Prop where
  inv : BInv m b (lost ++ base)
  count : lost.length + 2 * b.keys.vals.length = 2 * n
  none : lossy = false → lost = []

theorem mstep_spec {lossy : Bool} {ins} (hI : InsOk lossy ins) (ok : Nat → Bool) {m : Mem} {b : B} {n : Nat} {lost base : List Nat}
    (I : MInv lossy m b n lost base) (op : MOp) :
    ∃ m' b' n' lost', mstep ins ok m b n op = .ok (m', b', n') ∧ MInv lossy m' b' n' lost' base := by
  have hl := I.inv.len
  have hcnt := I.count
  cases op with
  | put found p =>
    by_cases hp : b.keys.vals.length < p
    · simp only [mstep, hp, if_true]
      exact ⟨_, _, _, _, rfl, I⟩
    rcases I.inv.inv.alloc ok with ⟨m1, e1, _, I1⟩ | ⟨m1, k, e1, hk, I1⟩
    · simp only [mstep, hp, if_false, e1, if_true]
      exact ⟨_, _, _, _, rfl, ⟨⟨I1, hl⟩, I.count, I.none⟩⟩
    rcases I1.alloc ok with ⟨m2, e2, _, I2⟩ | ⟨m2, v, e2, hv, I2⟩
    · obtain ⟨m3, e3, I3⟩ := I2.free
      simp only [mstep, hp, if_false, e1, hk, e2, if_true, e3, ok_bind]
      exact ⟨_, _, _, _, rfl, ⟨⟨I3, hl⟩, I.count, I.none⟩⟩
    cases found with
    | some i =>
      by_cases hi : i < b.keys.vals.length
      · have hiv : i < b.values.vals.length := by omega
        have I3 : PInv m2 b.keys b.values (b.values.vals[i] :: (k :: (b.keys.vals ++ b.values.vals.set i v ++ (lost ++ base)))) :=
          I2.mono (perm_of fun a => by
            have := count_set (x := v) hiv a
            simp only [List.count_append, List.count_cons]
            omega)
        obtain ⟨m4, e4, I4⟩ := I3.free
        obtain ⟨m5, e5, I5⟩ := I4.free
        have e6 : tset b.values v i = .ok { b.values with vals := b.values.vals.set i v } := by unfold tset; rw [if_pos hiv]; rfl
        simp only [mstep, hp, if_false, e1, hk, e2, hv, hi, if_true, tget_spec hiv, ok_bind, e4, e5, e6]
        refine ⟨_, _, _, lost, rfl, ⟨⟨⟨I5.inv, ?_, I5.null⟩, ?_⟩, I.count, I.none⟩⟩
        · simp only [List.length_set]; exact I5.le
        · simp only [List.length_set]; exact hl
      · obtain ⟨m4, e4, I4⟩ := (I2.mono (rest' := k :: (v :: (b.keys.vals ++ b.values.vals ++ (lost ++ base)))) (by counting)).free
        obtain ⟨m5, e5, I5⟩ := I4.free
        simp only [mstep, hp, if_false, e1, hk, e2, hv, hi, ok_bind, e4, e5]
        exact ⟨_, _, _, _, rfl, ⟨⟨I5, hl⟩, I.count, I.none⟩⟩
    | none =>
      have I3 : BInv m2 b (k :: v :: (lost ++ base)) := ⟨I2.mono (by counting), hl⟩
      obtain ⟨m4, b4, r, e4, h4⟩ := hI ok m2 b _ k v p I3 (by omega)
      simp only [mstep, hp, if_false, e1, hk, e2, hv, ok_bind, e4]
      rcases h4 with ⟨rfl, I4, l4⟩ | ⟨i, rfl, I4, l4⟩ | ⟨hL, ⟨i, rfl⟩, I4, l4⟩
      · obtain ⟨m5, e5, I5⟩ := (I4.inv.mono (rest' := k :: (v :: (b4.keys.vals ++ b4.values.vals ++ (lost ++ base)))) (by counting)).free
        obtain ⟨m6, e6, I6⟩ := I5.free
        simp only [e5, ok_bind, e6]
        exact ⟨_, _, _, lost, rfl, ⟨⟨I6, I4.len⟩, by omega, I.none⟩⟩
      · exact ⟨_, _, _, lost, rfl, ⟨I4, by omega, I.none⟩⟩
      · refine ⟨_, _, _, k :: v :: lost, rfl, ⟨I4, ?_, fun h => by rw [hL] at h; cases h⟩⟩
        simp only [List.length_cons]
        omega
  | remove i =>
    by_cases hi : i < b.keys.vals.length
    · have hiv : i < b.values.vals.length := by omega
      have I1 : PInv m b.keys b.values (b.keys.vals[i] :: (b.values.vals[i] :: (b.keys.vals.eraseIdx i ++ b.values.vals.eraseIdx i ++ (lost ++ base)))) :=
        I.inv.inv.mono (perm_of fun a => by
          have c1 := count_eraseIdx hi a
          have c2 := count_eraseIdx hiv a
          simp only [List.count_append, List.count_cons]
          omega)
      obtain ⟨m2, e2, I2⟩ := I1.free
      obtain ⟨m3, e3, I3⟩ := I2.free
      obtain ⟨ks, e4, I4, h4⟩ := I3.del hi
      obtain ⟨vs, e5, I5, h5⟩ := I4.symm.del hiv
      simp only [mstep, hi, if_true, tget_spec hi, tget_spec hiv, ok_bind, e2, e3, delete, e4, e5, pure_eq_ok]
      have hlen : (b.keys.vals.eraseIdx i).length = b.keys.vals.length - 1 := by rw [List.length_eraseIdx, if_pos hi]
      have hlen' : (b.values.vals.eraseIdx i).length = b.values.vals.length - 1 := by rw [List.length_eraseIdx, if_pos hiv]
      refine ⟨_, _, _, lost, rfl, ⟨⟨by simp only [h4, h5]; exact I5.symm, by simp only [h4, h5]; omega⟩, ?_, I.none⟩⟩
      simp only [h4]
      omega
    · simp only [mstep, hi, if_false]
      exact ⟨_, _, _, _, rfl, I⟩

theorem mrun_spec {lossy : Bool} {ins} (hI : InsOk lossy ins) (ok : Nat → Bool) : ∀ (ops : List MOp) {m : Mem} {b : B} {n : Nat} {lost base : List Nat},
    MInv lossy m b n lost base → ∃ m' b' n' lost', mrun ins ok m b n ops = .ok (m', b', n') ∧ MInv lossy m' b' n' lost' base
  | [], m, b, n, lost, base, I => ⟨m, b, n, lost, rfl, I⟩
  | op :: ops, m, b, n, lost, base, I => by
    obtain ⟨m1, b1, n1, l1, e1, I1⟩ := mstep_spec hI ok I op
    obtain ⟨m2, b2, n2, l2, e2, I2⟩ := mrun_spec hI ok ops I1
    exact ⟨m2, b2, n2, l2, by simp only [mrun, e1, ok_bind, e2], I2⟩

theorem fini_spec {m : Mem} {b : B} {rest : List Nat} (I : BInv m b rest) (flags : Nat) :
    ∃ m', fini m b flags = .ok m' ∧ Fresh m' ∧
      m'.live.Perm ((if flags &&& 1 ≠ 0 then [] else b.keys.vals) ++ (if flags &&& 2 ≠ 0 then [] else b.values.vals) ++ rest) := by
  have h1 : ∃ m1 ks, (if flags &&& 1 ≠ 0 then tfreeValues m b.keys else pure (m, b.keys)) = .ok (m1, ks) ∧
      PInv m1 ks b.values (b.values.vals ++ ((if flags &&& 1 ≠ 0 then [] else b.keys.vals) ++ rest)) := by
    by_cases h : flags &&& 1 ≠ 0
    · rw [if_pos h, if_pos h]
      obtain ⟨m1, ks, e, I1⟩ := (I.inv.mono (rest' := b.keys.vals ++ (b.values.vals ++ rest)) (by counting)).freeValues
      exact ⟨m1, ks, e, by simpa using I1⟩
    · rw [if_neg h, if_neg h]
      exact ⟨m, b.keys, rfl, I.inv.mono (by counting)⟩
  obtain ⟨m1, ks, e1, I1⟩ := h1
  have h2 : ∃ m2 vs, (if flags &&& 2 ≠ 0 then tfreeValues m1 b.values else pure (m1, b.values)) = .ok (m2, vs) ∧
      PInv m2 ks vs ((if flags &&& 1 ≠ 0 then [] else b.keys.vals) ++ (if flags &&& 2 ≠ 0 then [] else b.values.vals) ++ rest) := by
    by_cases h : flags &&& 2 ≠ 0
    · rw [if_pos h, if_pos h]
      obtain ⟨m2, vs, e, I2⟩ := I1.symm.freeValues
      exact ⟨m2, vs, e, by simpa using I2.symm⟩
    · rw [if_neg h, if_neg h]
      exact ⟨m1, b.values, rfl, I1.mono (by counting)⟩
  obtain ⟨m2, vs, e2, I2⟩ := h2
  obtain ⟨m3, m4, e3, e4, p, f⟩ := I2.freeBoth
  unfold fini
  rw [e1]
  simp only [ok_bind]
  rw [e2]
  simp only [ok_bind, e3, e4]
  exact ⟨m4, rfl, f, p⟩

/-! ### hbmap -/

/-- The blocks of a map and its entries. -/
def blocks (b : B) : List Nat := arr b.keys ++ arr b.values ++ b.keys.vals ++ b.values.vals

/-- What holds of a map regardless of the heap. -/
structure BOk (b : B) : Prop where
  kle : b.keys.vals.length ≤ b.keys.capa
  knull : b.keys.arr = 0 ↔ b.keys.capa = 0
  vle : b.values.vals.length ≤ b.values.capa
  vnull : b.values.arr = 0 ↔ b.values.capa = 0
  len : b.keys.vals.length = b.values.vals.length

theorem BInv.ok {m : Mem} {b : B} {rest : List Nat} (I : BInv m b rest) : BOk b := ⟨I.inv.inv.le, I.inv.inv.null, I.inv.le, I.inv.null, I.len⟩

theorem BInv.perm {m : Mem} {b : B} {rest : List Nat} (I : BInv m b rest) : m.live.Perm (blocks b ++ rest) :=
  I.inv.inv.perm.trans (by unfold blocks; counting)

theorem BOk.inv {m : Mem} {b : B} {rest : List Nat} (h : BOk b) (hp : m.live.Perm (blocks b ++ rest)) (hf : Fresh m) : BInv m b rest :=
  ⟨⟨⟨hp.trans (by unfold blocks; counting), hf, h.kle, h.knull⟩, h.vle, h.vnull⟩, h.len⟩

structure HInv (m : Mem) (h : List B) (base : List Nat) : Prop where
  perm : m.live.Perm (h.flatMap blocks ++ base)
  fresh : Fresh m
  ok : ∀ b ∈ h, BOk b

theorem hstep_spec (ok : Nat → Bool) {m : Mem} {h : List B} {base : List Nat} (I : HInv m h base) (j : Nat) (op : MOp) :
    ∃ m' h', hstep ok m h j op = .ok (m', h') ∧ HInv m' h' base := by
  unfold hstep
  by_cases hj : j < h.length
  · rw [List.getElem?_eq_getElem hj]
    have hh : h = h.take j ++ h[j] :: h.drop (j + 1) := by
      rw [← List.drop_eq_getElem_cons hj, List.take_append_drop]
    have hs : ∀ b, h.set j b = h.take j ++ b :: h.drop (j + 1) := fun b => by
      rw [List.set_eq_take_append_cons_drop, if_pos hj]
    have hB := (I.ok h[j] (List.getElem_mem _)).inv (m := m) (rest := (h.take j).flatMap blocks ++ (h.drop (j + 1)).flatMap blocks ++ base)
      (I.perm.trans (by
        have e : h.flatMap blocks = (h.take j).flatMap blocks ++ (blocks h[j] ++ (h.drop (j + 1)).flatMap blocks) := by
          rw [← List.flatMap_cons, ← List.flatMap_append, ← hh]
        rw [e]
        counting)) I.fresh
    obtain ⟨m1, b1, n1, l1, e1, I1⟩ := mstep_spec insOk_nocheck ok (n := h[j].keys.vals.length) (lost := []) ⟨hB, by simp, by simp⟩ op
    simp only [e1, ok_bind]
    refine ⟨m1, _, rfl, ⟨?_, I1.inv.inv.inv.fresh, ?_⟩⟩
    · have hp : m1.live.Perm (blocks b1 ++ ((h.take j).flatMap blocks ++ (h.drop (j + 1)).flatMap blocks ++ base)) := by
        have := I1.inv.perm
        rw [I1.none rfl] at this
        exact this
      rw [hs]
      refine hp.trans ?_
      simp only [List.flatMap_append, List.flatMap_cons, List.nil_append]
      counting
    · intro b hb
      rcases List.mem_or_eq_of_mem_set hb with hb | hb
      · exact I.ok b hb
      · subst hb; exact I1.inv.ok
  · rw [List.getElem?_eq_none (by omega)]
    exact ⟨m, h, rfl, I⟩

theorem hrun_spec (ok : Nat → Bool) : ∀ (ops : List (Nat × MOp)) {m : Mem} {h : List B} {base : List Nat}, HInv m h base →
    ∃ m' h', hrun ok m h ops = .ok (m', h') ∧ HInv m' h' base
  | [], m, h, base, I => ⟨m, h, rfl, I⟩
  | (j, op) :: ops, m, h, base, I => by
    obtain ⟨m1, h1, e1, I1⟩ := hstep_spec ok I j op
    obtain ⟨m2, h2, e2, I2⟩ := hrun_spec ok ops I1
    exact ⟨m2, h2, by simp only [hrun, e1, ok_bind, e2], I2⟩

theorem hfini_spec (flags : Nat) : ∀ (h : List B) {m : Mem} {base : List Nat}, HInv m h base →
    ∃ m', hfini m flags h = .ok m' ∧ Fresh m' ∧
      m'.live.Perm ((if flags &&& 1 ≠ 0 then [] else h.flatMap fun b => b.keys.vals) ++
        (if flags &&& 2 ≠ 0 then [] else h.flatMap fun b => b.values.vals) ++ base)
  | [], m, base, I => ⟨m, rfl, I.fresh, by have := I.perm; simpa using this⟩
  | b :: h, m, base, I => by
    have hB := (I.ok b (by simp)).inv (m := m) (rest := h.flatMap blocks ++ base) (by
      have := I.perm
      rw [List.flatMap_cons, List.append_assoc] at this
      exact this) I.fresh
    obtain ⟨m1, e1, f1, p1⟩ := fini_spec hB flags
    have I1 : HInv m1 h ((if flags &&& 1 ≠ 0 then [] else b.keys.vals) ++ (if flags &&& 2 ≠ 0 then [] else b.values.vals) ++ base) :=
      ⟨p1.trans (by counting), f1, fun c hc => I.ok c (by simp [hc])⟩
    obtain ⟨m2, e2, f2, p2⟩ := hfini_spec flags h I1
    refine ⟨m2, by simp only [hfini, e1, ok_bind, e2], f2, p2.trans ?_⟩
    by_cases h1 : flags &&& 1 ≠ 0 <;> by_cases h2 : flags &&& 2 ≠ 0 <;>
      simp only [h1, h2, if_pos, if_neg, not_false_eq_true, List.flatMap_cons, ne_eq, not_true_eq_false, if_true, if_false] <;> counting

theorem hinit_inv {m : Mem} (nb : Nat) (h : Fresh m) : HInv m (List.replicate nb binit) m.live := by
  refine ⟨?_, h, fun b hb => ?_⟩
  · have : (List.replicate nb binit).flatMap blocks = [] := by
      rw [List.flatMap_eq_nil_iff]
      intro b hb
      rw [List.eq_of_mem_replicate hb]
      simp [blocks, arr, binit, tinit]
    rw [this, List.nil_append]
  · rw [List.eq_of_mem_replicate hb]
    exact ⟨by simp [binit, tinit], by simp [binit, tinit], by simp [binit, tinit], by simp [binit, tinit], rfl⟩

/-! ### hbmap_new -/

theorem setCompare_ok (size : Nat) : ∀ (n i : Nat), 16 + (i + n) * 80 ≤ size → setCompare size i n = .ok ()
  | 0, i, _ => rfl
  | n + 1, i, h => by
    have h1 : bucketsOff + i * bmapSize + compareOff + 8 ≤ size := by unfold bucketsOff bmapSize compareOff; omega
    have h2 : 16 + (i + 1 + n) * 80 ≤ size := by omega
    unfold setCompare
    rw [if_pos h1]
    exact setCompare_ok size n (i + 1) h2

theorem setCompare_bad (size : Nat) : ∀ (n i : Nat), 0 < n → size < 8 + (i + n) * 80 → setCompare size i n = .error .oobWrite := by
  intro n
  induction n with
  | zero => intro i h; omega
  | succ n ih =>
    intro i _ h
    unfold setCompare
    by_cases hc : bucketsOff + i * bmapSize + compareOff + 8 ≤ size
    · rw [if_pos hc]
      unfold bucketsOff bmapSize compareOff at hc
      have hn : 0 < n := by omega
      have h2 : size < 8 + (i + 1 + n) * 80 := by omega
      exact ih (i + 1) hn h2
    · rw [if_neg hc]

/-- `hbmap_new` with every allocation succeeding. -/
theorem hbmap_new_spec (n : Nat) (hn : n < 2 ^ 64) :
    hbmap_new true n = if 16 + 80 * n < 2 ^ 64 then .ok true else .error .oobWrite := by
  unfold hbmap_new szt
  simp only [if_true]
  unfold bucketsOff bmapSize
  by_cases h : 16 + 80 * n < 2 ^ 64
  · rw [if_pos h]
    have e : (16 + n * 80 % 2 ^ 64) % 2 ^ 64 = 16 + 80 * n := by omega
    rw [e, if_neg (by omega), setCompare_ok _ n 0 (by omega)]
    rfl
  · rw [if_neg h]
    generalize hs : (16 + n * 80 % 2 ^ 64) % 2 ^ 64 = size
    by_cases h8 : size < 8
    · rw [if_pos h8]
    · rw [if_neg h8, setCompare_bad size n 0 (by omega) (by omega)]
      rfl

end Ulz.Own

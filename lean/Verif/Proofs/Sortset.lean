import Verif.Spec.Sortset
import Verif.Proofs.Sblist
import Verif.Props.Sblist
/-! Lemmas for C224. -/
namespace Ulz.Sortset
open Ulz.Sblist Ulz.Sblist.Spec Ulz.Sortset.Spec

theorem eq_symm {cmp} (hc : TotalPreorder cmp) {a b : List Byte} (h : cmp a b = 0) : cmp b a = 0 := by
  have h1 := hc.flip a b
  have h2 := hc.flip b a
  omega

theorem eq_trans {cmp} (hc : TotalPreorder cmp) {a b c : List Byte} (h : cmp a b = 0) (h' : cmp b c = 0) : cmp a c = 0 := by
  have h1 := hc.trans a b c (by omega) (by omega)
  have h2 := hc.trans c b a (by rw [eq_symm hc h']; omega) (by rw [eq_symm hc h]; omega)
  have h3 := hc.flip a c
  have h4 := hc.flip c a
  omega

/-- The list holds a table: strictly ascending, and what is stored under a key is the item equal to it. -/
structure Inv (cmp : List Byte → List Byte → Int) (isz bi : Nat) (l : SB) (xs : List (List Byte)) (f : Table) : Prop where
  rep : Rep l xs
  isz : l.itemsize = isz
  bi : l.blockitems = bi
  asc : xs.Pairwise fun a b => cmp a b < 0
  tab : ∀ y x, f y = some x ↔ x ∈ xs ∧ cmp y x = 0

theorem asc_sorted {cmp} {xs : List (List Byte)} (h : xs.Pairwise fun a b => cmp a b < 0) : Sorted cmp xs :=
  h.imp fun h => by omega

theorem Inv.none_iff {cmp isz bi l xs f} (h : Inv cmp isz bi l xs f) (y : List Byte) : f y = none ↔ ∀ x ∈ xs, cmp y x ≠ 0 := by
  constructor
  · intro hn x hx he
    rw [(h.tab y x).2 ⟨hx, he⟩] at hn
    cases hn
  · intro ha
    cases hf : f y with
    | none => rfl
    | some x =>
      obtain ⟨h1, h2⟩ := (h.tab y x).1 hf
      exact absurd h2 (ha x h1)

/-- Searching gives what is stored. -/
theorem Inv.search {cmp isz bi l xs f} (hc : TotalPreorder cmp) (h : Inv cmp isz bi l xs f) (hb : l.count * l.itemsize < 2^64) (y : List Byte) :
    (bsearch l y cmp = .ok none ∧ f y = none) ∨ ∃ i, ∃ hi : i < xs.length, bsearch l y cmp = .ok (some i) ∧ cmp y xs[i] = 0 ∧ f y = some xs[i] := by
  obtain ⟨r, h1, h2, h3⟩ := Props.sblist_bsearch_correct l xs h.rep hb y cmp
  cases r with
  | none => exact .inl ⟨h1, (h.none_iff y).2 ((h3 hc (asc_sorted h.asc)).1 rfl)⟩
  | some i =>
    obtain ⟨hi, he⟩ := h2 i rfl
    exact .inr ⟨i, hi, h1, he, (h.tab _ _).2 ⟨List.getElem_mem hi, he⟩⟩

theorem asc_ne {cmp} (hc : TotalPreorder cmp) {xs : List (List Byte)} (h : xs.Pairwise fun a b => cmp a b < 0) {i j : Nat} (hi : i < xs.length) (hj : j < xs.length)
    (hij : i ≠ j) : cmp xs[i] xs[j] ≠ 0 := by
  rw [List.pairwise_iff_getElem] at h
  rcases Nat.lt_or_gt_of_ne hij with hlt | hgt
  · have := h i j hi hj hlt; omega
  · intro he
    have := h j i hj hi hgt
    have := eq_symm hc he
    omega

theorem Inv.insert {cmp isz bi l xs f} (hc : TotalPreorder cmp) (h : Inv cmp isz bi l xs f) (hbi : 0 < bi) (hb : (l.count + bi) * isz < 2^64) (x : List Byte)
    (hx : x.length = isz) (a : Alloc) (hf : f x = none) :
    (∃ l' p xs', insert_sorted a l x cmp = .ok (l', some p) ∧ xs'.length = xs.length + 1 ∧ Inv cmp isz bi l' xs' (fun y => if cmp y x = 0 then some x else f y)) ∨
    (a = none ∧ insert_sorted a l x cmp = .ok (l, none)) := by
  have hbi' : 0 < l.blockitems := by rw [h.bi]; exact hbi
  have hb' : (l.count + l.blockitems) * l.itemsize < 2 ^ 64 := by rw [h.bi, h.isz]; exact hb
  rcases insert_sorted_spec h.rep hbi' hb' a x (by rw [h.isz]; exact hx) cmp with ⟨l', p, h1, h2, h3, h4⟩ | ⟨h1, _, h2⟩
  · left
    have hperm : (xs.take p ++ x :: xs.drop p).Perm (x :: xs) := by
      have := List.perm_middle (a := x) (l₁ := xs.take p) (l₂ := xs.drop p)
      rwa [List.take_append_drop] at this
    refine ⟨l', p, _, h1, by rw [hperm.length_eq]; rfl, h3, ?_, ?_, ?_, ?_⟩
    · have : l'.itemsize = l.itemsize := by
        have := h3.item x (by simp)
        rw [← this, hx, h.isz]
      rw [this, h.isz]
    · unfold insert_sorted at h1
      cases hp : sortedIndex l x cmp with
      | error e => rw [hp] at h1; cases h1
      | ok q =>
        rw [hp, ok_bind] at h1
        cases hi : Sblist.insert a l x q with
        | error e => rw [hi] at h1; cases h1
        | ok r =>
          obtain ⟨l2, ok⟩ := r
          rw [hi, ok_bind] at h1
          dsimp only at h1
          split at h1
          · rename_i hok
            have h1 := Except.ok.inj h1
            simp only [Prod.mk.injEq, Option.some.injEq] at h1
            obtain ⟨rfl, rfl⟩ := h1
            rcases insert_spec h.rep hbi' hb' a x (by rw [h.isz]; exact hx) q h2 with ⟨l3, i1, _, _, i4⟩ | ⟨_, i2⟩
            · rw [hi] at i1
              have i1 := Except.ok.inj i1
              simp only [Prod.mk.injEq] at i1
              rw [i1.1, i4, h.bi]
            · rw [hi] at i2
              have i2 := Except.ok.inj i2
              simp only [Prod.mk.injEq] at i2
              exact absurd i2.2 hok
          · have h1 := Except.ok.inj h1
            simp at h1
    · have hs := h4 hc (asc_sorted h.asc)
      have hne : (xs.take p ++ x :: xs.drop p).Pairwise fun a b => cmp a b ≠ 0 := by
        refine (hperm.pairwise_iff (fun hab hba => hab (eq_symm hc hba))).2 ?_
        refine List.pairwise_cons.2 ⟨fun y hy => (h.none_iff x).1 hf y hy, h.asc.imp fun h => by omega⟩
      exact (hs.and hne).imp fun ⟨h1, h2⟩ => by omega
    · intro y z
      have hm : z ∈ xs.take p ++ x :: xs.drop p ↔ z = x ∨ z ∈ xs := by rw [hperm.mem_iff, List.mem_cons]
      rw [hm]
      by_cases hy : cmp y x = 0
      · rw [if_pos hy]
        constructor
        · intro he
          cases he
          exact ⟨.inl rfl, hy⟩
        · rintro ⟨rfl | hz, he⟩
          · rfl
          · exact absurd (eq_trans hc (eq_symm hc hy) he) ((h.none_iff x).1 hf z hz)
      · rw [if_neg hy, h.tab]
        constructor
        · rintro ⟨h1, h2⟩; exact ⟨.inr h1, h2⟩
        · rintro ⟨rfl | hz, he⟩
          · exact absurd he hy
          · exact ⟨hz, he⟩
  · exact .inr ⟨h1, h2⟩

theorem Inv.delete {cmp isz bi l xs f} (hc : TotalPreorder cmp) (h : Inv cmp isz bi l xs f) (hb : l.count * l.itemsize < 2^64) (x : List Byte) {i : Nat}
    (hi : i < xs.length) (he : cmp x xs[i] = 0) :
    ∃ l', Sblist.delete l i = .ok l' ∧ Inv cmp isz bi l' (xs.eraseIdx i) (fun y => if cmp y x = 0 then none else f y) := by
  obtain ⟨l', h1, h2, h3, h4, _⟩ := delete_spec h.rep hb i
  refine ⟨l', h1, h2, by rw [h3, h.isz], by rw [h4, h.bi], h.asc.sublist (List.eraseIdx_sublist _ _), fun y z => ?_⟩
  rw [List.mem_eraseIdx_iff_getElem]
  by_cases hy : cmp y x = 0
  · rw [if_pos hy]
    constructor
    · intro h; cases h
    · rintro ⟨⟨j, hj, hji, rfl⟩, hz⟩
      exact absurd (eq_trans hc (eq_symm hc he) (eq_trans hc (eq_symm hc hy) hz)) (asc_ne hc h.asc hi hj (Ne.symm hji))
  · rw [if_neg hy, h.tab]
    constructor
    · rintro ⟨hz, hyz⟩
      obtain ⟨j, hj, rfl⟩ := List.mem_iff_getElem.1 hz
      refine ⟨⟨j, hj, ?_, rfl⟩, hyz⟩
      rintro rfl
      exact hy (eq_trans hc hyz (eq_symm hc he))
    · rintro ⟨⟨j, hj, _, rfl⟩, hz⟩
      exact ⟨List.getElem_mem hj, hz⟩

theorem step_inv {cmp isz bi l xs f} (hc : TotalPreorder cmp) (hbi : 0 < bi) (h : Inv cmp isz bi l xs f) (hb : (l.count + bi) * isz < 2^64) (op : Op) (hop : OpOk isz op) :
    ∃ l' r xs' g, step cmp l op = .ok (l', r) ∧ Spec.Step cmp f op g r ∧ Inv cmp isz bi l' xs' g ∧ xs'.length ≤ xs.length + 1 := by
  have hb0 : l.count * l.itemsize < 2 ^ 64 := by rw [h.isz]; exact mul_lt_of hb (by omega)
  cases op with
  | add x a =>
    rcases h.search hc hb0 x with ⟨h1, h2⟩ | ⟨i, hi, h1, _, h2⟩
    · rcases h.insert hc hbi hb x hop a h2 with ⟨l', p, xs', i1, i2, i3⟩ | ⟨rfl, i2⟩
      · exact ⟨l', .int 1, xs', _, by simp only [step]; rw [show addKey a l x cmp = .ok (l', 1) from by unfold addKey; rw [h1, ok_bind]; dsimp only; rw [i1]; rfl]; rfl, .add h2, i3, by omega⟩
      · exact ⟨l, .int 2, xs, _, by simp only [step]; rw [show addKey none l x cmp = .ok (l, 2) from by unfold addKey; rw [h1, ok_bind]; dsimp only; rw [i2]; rfl]; rfl, .addFail h2, h, by omega⟩
    · exact ⟨l, .int 0, xs, _, by simp only [step]; rw [show addKey a l x cmp = .ok (l, 0) from by unfold addKey; rw [h1]; rfl]; rfl, .addThere h2, h, by omega⟩
  | remove x =>
    rcases h.search hc hb0 x with ⟨h1, h2⟩ | ⟨i, hi, h1, he, h2⟩
    · exact ⟨l, .int 0, xs, _, by simp only [step]; rw [show removeKey l x cmp = .ok (l, 0) from by unfold removeKey; rw [h1]; rfl]; rfl, .removeNot h2, h, by omega⟩
    · obtain ⟨l', d1, d2⟩ := h.delete hc hb0 x hi he
      exact ⟨l', .int 1, _, _, by simp only [step]; rw [show removeKey l x cmp = .ok (l', 1) from by unfold removeKey; rw [h1, ok_bind]; dsimp only; rw [d1]; rfl]; rfl, .remove h2, d2, Nat.le_trans (List.length_eraseIdx_le _ _) (by omega)⟩
  | find x =>
    rcases h.search hc hb0 x with ⟨h1, h2⟩ | ⟨i, hi, h1, he, h2⟩
    · exact ⟨l, .item (f x), xs, _, by simp only [step]; rw [show findKey l x cmp = .ok (f x) from by unfold findKey; rw [h1, h2]; rfl]; rfl, .find, h, by omega⟩
    · exact ⟨l, .item (f x), xs, _, by simp only [step]; rw [show findKey l x cmp = .ok (f x) from by unfold findKey; rw [h1, h2, ok_bind]; dsimp only; rw [deref_get h.rep hb0 hi]; rfl]; rfl, .find, h, by omega⟩

theorem run_inv {cmp isz bi} (hc : TotalPreorder cmp) (hbi : 0 < bi) : ∀ (ops : List Op) {l xs f}, Inv cmp isz bi l xs f →
    (xs.length + ops.length + bi) * isz < 2^64 → (∀ op ∈ ops, OpOk isz op) →
    ∃ l' rs xs' g, run cmp l ops = .ok (l', rs) ∧ Spec.Steps cmp f ops g rs ∧ Inv cmp isz bi l' xs' g
  | [], l, xs, f, h, _, _ => ⟨l, [], xs, f, rfl, .nil, h⟩
  | op :: ops, l, xs, f, h, hb, hok => by
    rw [List.length_cons] at hb
    obtain ⟨l1, r, xs1, g1, s1, s2, s3, s4⟩ := step_inv hc hbi h (mul_lt_of hb (by rw [h.rep.count]; omega)) op (hok op (by simp))
    obtain ⟨l2, rs, xs2, g2, t1, t2, t3⟩ := run_inv hc hbi ops s3 (mul_lt_of hb (by omega)) (fun o ho => hok o (by simp [ho]))
    refine ⟨l2, r :: rs, xs2, g2, ?_, .cons s2 t2, t3⟩
    unfold run
    rw [s1, ok_bind]
    dsimp only
    rw [t1]
    rfl

end Ulz.Sortset

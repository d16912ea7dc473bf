import Verif.Proofs.Alias
/-! C144, C145: lists that are handed one of their own items. -/
set_option linter.unusedVariables false
namespace Ulz.Props
open Ulz.Alias
open Ulz.Sblist (SB)
open Ulz.Tglist (TG)

/-- C144, the model: for items outside the list the calls are those of C25. -/
theorem alias_outside (a : Alloc) (l : SB) (x : List Byte) (pos : Nat) :
    sbadd a l (.ext x) = lift (Sblist.add a l x) ∧
    (pos < l.count → sbset l (.ext x) pos = lift (Sblist.set l x pos)) ∧
    sbinsert a l (.ext x) pos = lift (Sblist.insert a l x pos) := by
  refine ⟨?_, fun h => ?_, ?_⟩
  · unfold sbadd Sblist.add sbgrow
    rcases hg : Sblist.grow_if_needed a l with ⟨l1, ok⟩
    simp only [hg]
    by_cases h0 : ok = 0
    · rw [if_pos h0, if_pos h0]; rfl
    · rw [if_neg h0, if_neg h0]
      unfold sbset
      rw [if_neg (by simp)]
      simp
  · unfold sbset
    rw [if_neg (by omega)]
  · unfold sbinsert Sblist.insert sbgrow
    rcases hg : Sblist.grow_if_needed a l with ⟨l1, ok⟩
    simp only [hg]
    by_cases h0 : ok = 0
    · rw [if_pos h0, if_pos h0]; rfl
    · rw [if_neg h0, if_neg h0]
      cases hm : memmove l1.items (szt ((pos + 1) * l1.itemsize)) (szt (pos * l1.itemsize))
          (szt (sztSub l1.count pos * l1.itemsize)) with
      | error e => rfl
      | ok items =>
        simp only [lift_ok, aok_bind, ok_bind]
        unfold sbset Sblist.set
        split <;> rfl

/-- C144. `sblist_add(l, sblist_get(l, i))`: if the buffer has room, a copy of item `i` is appended; if it
    is full and memory is available, the call reads freed memory; without memory it returns 0 and the list
    is unchanged. -/
theorem sblist_add_own (l : SB) (xs : List (List Byte)) (h : Sblist.Spec.Rep l xs) (hbi : 0 < l.blockitems)
    (hb : (l.count + l.blockitems) * l.itemsize < 2^64) (i o : Nat) (hg : Sblist.get l i = some o) (a : Alloc) :
    ∃ hi : i < xs.length,
      (l.count < l.capa →
        ∃ l', sbadd a l (.own o) = .ok (l', 1) ∧ Sblist.Spec.Rep l' (xs ++ [xs[i]])) ∧
      (l.count = l.capa → a ≠ none → sbadd a l (.own o) = .error .freed) ∧
      (l.count = l.capa → a = none → sbadd a l (.own o) = .ok (l, 0)) := by
  have hb0 : l.count * l.itemsize < 2^64 := Sblist.mul_lt_of hb (by omega)
  have hb1 : (l.count + 1) * l.itemsize < 2^64 := Sblist.mul_lt_of hb (by omega)
  obtain ⟨hi, rfl⟩ := get_some h hb0 hg
  refine ⟨hi, fun hc => ?_, fun hc ha => ?_, fun hc ha => ?_⟩
  · unfold sbadd sbgrow Sblist.grow_if_needed
    have hne : l.count ≠ l.capa := by omega
    simp only [hne, false_and, if_false, Nat.one_ne_zero]
    obtain ⟨g, hr⟩ := extend h hc
    have hl : i < (xs ++ [g]).length := by simp; omega
    have hp : l.count < (xs ++ [g]).length := by simp [h.count]
    have := sbset_own hr hb1 hl hp (by have := h.count; omega)
    simp only [List.getElem_append_left hi] at this
    rw [this]
    obtain ⟨l', s1, s2, _⟩ := Sblist.add_raw h hc hb1 xs[i] (h.item _ (List.getElem_mem _))
    exact ⟨l', by rw [s1]; rfl, s2⟩
  · cases a with
    | none => exact absurd rfl ha
    | some f =>
      have hm := grow_moved hc f
      unfold sbadd sbgrow
      rcases hg' : Sblist.grow_if_needed (some f) l with ⟨l1, ok⟩
      rw [hg'] at hm
      obtain ⟨h1, h2⟩ := hm
      simp only at h1 h2
      subst h1
      simp only [hc, Option.isSome_some, and_self, if_true, Nat.one_ne_zero, if_false, sbset]
      rw [if_neg (by omega)]
  · subst ha
    unfold sbadd sbgrow Sblist.grow_if_needed
    simp [hc, Ulz.realloc]

/-- A full list of two items: its own item cannot be added. With room left it can. -/
example : sbadd (some fun _ => 0) ⟨2, 2, 2, 2, [1, 2, 3, 4]⟩ (.own 2) = .error .freed := by decide
example : sbadd (some fun _ => 0) ⟨2, 2, 2, 4, [1, 2, 3, 4, 0, 0, 0, 0]⟩ (.own 2) =
    .ok (⟨2, 2, 3, 4, [1, 2, 3, 4, 3, 4, 0, 0]⟩, 1) := by decide

/-- C144. `sblist_set(l, sblist_get(l, i), pos)` copies item `i` to another position; setting an item to
    itself is undefined (`memcpy` onto itself). -/
theorem sblist_set_own (l : SB) (xs : List (List Byte)) (h : Sblist.Spec.Rep l xs)
    (hb : l.count * l.itemsize < 2^64) (i o pos : Nat) (hg : Sblist.get l i = some o) :
    ∃ hi : i < xs.length,
      (pos < xs.length → pos ≠ i →
        ∃ l', sbset l (.own o) pos = .ok (l', 1) ∧ Sblist.Spec.Rep l' (xs.set pos xs[i])) ∧
      (pos = i → sbset l (.own o) pos = .error .overlap) ∧
      (xs.length ≤ pos → sbset l (.own o) pos = .ok (l, 0)) := by
  obtain ⟨hi, rfl⟩ := get_some h hb hg
  refine ⟨hi, fun hp hne => ?_, fun he => ?_, fun hp => ?_⟩
  · rw [sbset_own h hb hi hp (Ne.symm hne)]
    obtain ⟨l', s1, s2, _⟩ := (Sblist.set_spec h hb xs[i] (h.item _ (List.getElem_mem _)) pos).1 hp
    exact ⟨l', by rw [s1]; rfl, s2⟩
  · subst he; exact sbset_same h hb hi
  · unfold sbset
    rw [if_pos (by rw [h.count]; exact hp)]

example : sbset ⟨2, 2, 2, 2, [1, 2, 3, 4]⟩ (.own 2) 0 = .ok (⟨2, 2, 2, 2, [3, 4, 3, 4]⟩, 1) := by decide
example : sbset ⟨2, 2, 2, 2, [1, 2, 3, 4]⟩ (.own 2) 1 = .error .overlap := by decide

/-- C144. `sblist_insert(l, sblist_get(l, i), pos)` into a list with room: an item before `pos` is inserted
    correctly; for an item behind `pos` its predecessor is inserted instead; for the item at `pos` the call
    is undefined. A full list reads freed memory (or, without memory, returns 0). -/
theorem sblist_insert_own (l : SB) (xs : List (List Byte)) (h : Sblist.Spec.Rep l xs) (hbi : 0 < l.blockitems)
    (hb : (l.count + l.blockitems) * l.itemsize < 2^64) (i o : Nat) (hg : Sblist.get l i = some o) (a : Alloc)
    (pos : Nat) (hp : pos ≤ xs.length) :
    ∃ hi : i < xs.length,
      (l.count < l.capa → i < pos →
        ∃ l', sbinsert a l (.own o) pos = .ok (l', 1) ∧
          Sblist.Spec.Rep l' (xs.take pos ++ xs[i] :: xs.drop pos)) ∧
      (l.count < l.capa → pos < i →
        ∃ l', sbinsert a l (.own o) pos = .ok (l', 1) ∧
          Sblist.Spec.Rep l' (xs.take pos ++ xs[i - 1] :: xs.drop pos)) ∧
      (l.count < l.capa → i = pos → sbinsert a l (.own o) pos = .error .overlap) ∧
      (l.count = l.capa → a ≠ none → sbinsert a l (.own o) pos = .error .freed) ∧
      (l.count = l.capa → a = none → sbinsert a l (.own o) pos = .ok (l, 0)) := by
  have hb0 : l.count * l.itemsize < 2^64 := Sblist.mul_lt_of hb (by omega)
  have hb1 : (l.count + 1) * l.itemsize < 2^64 := Sblist.mul_lt_of hb (by omega)
  obtain ⟨hi, rfl⟩ := get_some h hb0 hg
  have key : l.count < l.capa → ∃ l1 g, sbinsert a l (.own (i * l.itemsize)) pos =
        sbset l1 (.own (i * l.itemsize)) pos ∧
      Sblist.Spec.Rep l1 (xs.take pos ++ g :: xs.drop pos) ∧ l1.itemsize = l.itemsize ∧
        l1.count = l.count + 1 := by
    intro hc
    obtain ⟨items, g, m1, m2, m3⟩ := shift h hc hb1 hp
    refine ⟨_, g, ?_, m2, rfl, rfl⟩
    unfold sbinsert sbgrow Sblist.grow_if_needed
    have hne : l.count ≠ l.capa := by omega
    simp only [hne, false_and, if_false, Nat.one_ne_zero, m1, lift_ok, aok_bind]
  have ins : ∀ hne : i ≠ pos, l.count < l.capa →
      ∀ y, (∀ g, ∀ hl : i < (xs.take pos ++ g :: xs.drop pos).length, (xs.take pos ++ g :: xs.drop pos)[i] = y) →
      ∃ l', sbinsert a l (.own (i * l.itemsize)) pos = .ok (l', 1) ∧
        Sblist.Spec.Rep l' (xs.take pos ++ y :: xs.drop pos) := by
    intro hne hc y hy
    obtain ⟨l1, g, k1, k2, k3, k4⟩ := key hc
    have hl := gap_length (g := g) hp
    have hl' : i < (xs.take pos ++ g :: xs.drop pos).length := by omega
    have hbl : l1.count * l1.itemsize < 2^64 := by rw [k3, k4]; exact hb1
    rw [k1, ← k3, sbset_own k2 hbl hl' (by omega) hne, hy g hl']
    have hylen : y.length = l1.itemsize := by
      rw [← hy g hl']; exact k2.item _ (List.getElem_mem _)
    obtain ⟨l', s1, s2, _⟩ := (Sblist.set_spec k2 hbl y hylen pos).1 (by omega)
    exact ⟨l', by rw [s1]; rfl, by rw [gap_set hp] at s2; exact s2⟩
  refine ⟨hi, fun hc hlt => ?_, fun hc hgt => ?_, fun hc he => ?_, fun hc ha => ?_, fun hc ha => ?_⟩
  · exact ins (by omega) hc _ fun g hl => (gap_get hp hi hl).1 hlt
  · exact ins (by omega) hc _ fun g hl => (gap_get hp hi hl).2.2 hgt
  · obtain ⟨l1, g, k1, k2, k3, k4⟩ := key hc
    subst he
    have hl := gap_length (g := g) hp
    rw [k1, ← k3]
    exact sbset_same k2 (by rw [k3, k4]; exact hb1) (by omega)
  · cases a with
    | none => exact absurd rfl ha
    | some f =>
      obtain ⟨l1, g1, g2, g3, g4, g5, _⟩ | ⟨g1, _⟩ := Sblist.grow_spec h hbi hb (some f)
      · unfold sbinsert sbgrow
        rw [g1]
        have hcn : l1.count = l.count := by rw [g2.count, h.count]
        obtain ⟨items, g, m1, m2, m3⟩ := shift g2 g3 (by rw [hcn, g4]; exact hb1) hp
        simp only [hc, Option.isSome_some, and_self, if_true, Nat.one_ne_zero, if_false, m1, lift_ok, aok_bind, sbset]
        have := g2.count
        rw [if_neg (by omega)]
      · cases g1
  · subst ha
    unfold sbinsert sbgrow Sblist.grow_if_needed
    simp [hc, Ulz.realloc]

/-- Inserting the last of three items in front: the middle one is inserted. -/
example : sbinsert none ⟨1, 4, 3, 4, [1, 2, 3, 0]⟩ (.own 2) 0 = .ok (⟨1, 4, 4, 4, [2, 1, 2, 3]⟩, 1) := by decide
example : sbinsert none ⟨1, 4, 3, 4, [1, 2, 3, 0]⟩ (.own 0) 3 = .ok (⟨1, 4, 4, 4, [1, 2, 3, 1]⟩, 1) := by decide
example : sbinsert none ⟨1, 4, 3, 4, [1, 2, 3, 0]⟩ (.own 0) 0 = .error .overlap := by decide

/-- C144. Putting the popped item back with `sblist_add(l, sblist_pop(l))` is undefined for every list and
    every allocator: the item is copied onto itself. -/
theorem sblist_pop_add (l : SB) (xs : List (List Byte)) (h : Sblist.Spec.Rep l xs)
    (hb : l.count * l.itemsize < 2^64) (hne : xs ≠ []) (a : Alloc) :
    ∃ l' o, Sblist.pop l = .ok (l', some o) ∧ sbadd a l' (.own o) = .error .overlap := by
  have hlen : 0 < xs.length := List.length_pos_iff.2 hne
  have hcnt := h.count
  obtain ⟨l', d1, d2, d3, d4, d5⟩ := Sblist.delete_spec h hb (l.count - 1)
  have hg : Sblist.get l (l.count - 1) = some ((l.count - 1) * l.itemsize) := by
    unfold Sblist.get
    rw [if_pos (by omega), szt_of_lt (Sblist.mul_lt_of hb (by omega))]
  have e : l'.count = l.count - 1 ∧ l'.capa = l.capa := by
    unfold Sblist.delete at d1
    rw [if_pos (by omega)] at d1
    cases hm : memmove l.items (szt ((l.count - 1) * l.itemsize)) (szt ((l.count - 1 + 1) * l.itemsize))
        (szt ((l.count - (l.count - 1 + 1)) * l.itemsize)) with
    | error e => rw [hm] at d1; cases d1
    | ok items => rw [hm] at d1; cases d1; exact ⟨rfl, rfl⟩
  refine ⟨l', (l.count - 1) * l.itemsize, ?_, ?_⟩
  · unfold Sblist.pop
    rw [if_pos (by omega), hg, d1]
    rfl
  · have hcap := h.capa
    have hne' : l'.count ≠ l'.capa := by rw [e.1, e.2]; omega
    unfold sbadd sbgrow Sblist.grow_if_needed
    simp only [hne', false_and, if_false, Nat.one_ne_zero]
    obtain ⟨g, hr⟩ := extend d2 (by rw [e.1, e.2]; omega)
    rw [show (l.count - 1) * l.itemsize = l'.count * l'.itemsize by rw [e.1, d3]]
    refine sbset_same hr ?_ ?_
    · simp only [e.1, d3]; exact Sblist.mul_lt_of hb (by omega)
    · rw [List.length_append, List.length_singleton, ← d2.count]; omega

example : Sblist.pop ⟨1, 4, 3, 4, [1, 2, 3, 0]⟩ = .ok (⟨1, 4, 2, 4, [1, 2, 3, 0]⟩, some 2) ∧
    sbadd none ⟨1, 4, 2, 4, [1, 2, 3, 0]⟩ (.own 2) = .error .overlap := by decide

/-- C144. `sblist_insert_sorted(l, sblist_get(l, i), compar)` on a list without equal items is never
    defined unless it fails for lack of memory: the item is freed (full list) or copied onto itself. -/
theorem sblist_insert_sorted_own (l : SB) (xs : List (List Byte)) (h : Sblist.Spec.Rep l xs)
    (hbi : 0 < l.blockitems) (hb : (l.count + l.blockitems) * l.itemsize < 2^64) (i o : Nat)
    (hg : Sblist.get l i = some o) (a : Alloc) (cmp : List Byte → List Byte → Int)
    (hc : Sblist.Spec.TotalPreorder cmp) (hs : xs.Pairwise fun a b => cmp a b < 0) :
    sbinsert_sorted a l (.own o) cmp =
      if l.count < l.capa then .error .overlap else if a = none then .ok (l, none) else .error .freed := by
  have hb0 : l.count * l.itemsize < 2^64 := Sblist.mul_lt_of hb (by omega)
  obtain ⟨hi, ho⟩ := get_some h hb0 hg
  obtain ⟨_, _, _, p3, p4, p5⟩ := sblist_insert_own l xs h hbi hb i o hg a i (by omega)
  have hcap := h.capa
  unfold sbinsert_sorted
  rw [ho] at p3 p4 p5 ⊢
  simp only
  rw [read h hb0 hi]
  simp only [lift_ok, aok_bind]
  rw [sortedIndex_self h hb0 hc hs hi]
  simp only [lift_ok, aok_bind]
  by_cases h1 : l.count < l.capa
  · rw [if_pos h1, p3 h1 rfl]; rfl
  · rw [if_neg h1]
    by_cases h2 : a = none
    · rw [if_pos h2, p5 (by omega) h2]; rfl
    · rw [if_neg h2, p4 (by omega) h2]; rfl

example : sbinsert_sorted none ⟨1, 4, 3, 4, [1, 2, 3, 0]⟩ (.own 1)
    (fun a b => (a.headD 0).toNat - (b.headD 0).toNat) = .error .overlap := by decide

/-- C145, the model: for values that do not depend on the list the macros are those of C52. -/
theorem alias_outside_tglist (isz : Nat) (a : Alloc) (l : TG) (x : List Byte) (pos : Nat) :
    tgadd isz a l (fun _ => .ok x) = Tglist.add isz a l x ∧
    tginsert isz a l (fun _ => .ok x) (fun _ => pos) = Tglist.insert isz a l x pos := by
  constructor
  · unfold tgadd Tglist.add
    rcases Tglist.grow_if_needed isz a l with ⟨l1, ok⟩
    rfl
  · unfold tginsert Tglist.insert
    rcases Tglist.grow_if_needed isz a l with ⟨l1, ok⟩
    dsimp only
    by_cases h0 : ok = 0
    · rw [if_pos h0, if_pos h0]
    · rw [if_neg h0, if_neg h0]
      cases Tglist.memmove_impl isz l1 (pos + 1) (-1) with
      | error e => simp only [ok_bind]
      | ok l2 => simp only [ok_bind]

/-- C145. `tglist_add(l, tglist_get(l, i))` appends item `i`, whether or not the buffer has to grow. -/
theorem tglist_add_own (isz : Nat) (l : TG) (xs : List (List Byte)) (h : Tglist.Spec.Rep isz l xs)
    (hb : (2 * l.count + 4) * isz < 2^64) (a : Alloc) (i : Nat) (hi : i < xs.length) :
    (∃ l', tgadd isz a l (fun l => Tglist.get isz l i) = .ok (l', 1) ∧ Tglist.Spec.Rep isz l' (xs ++ [xs[i]])) ∨
    (a = none ∧ l.count = l.capa ∧ tgadd isz a l (fun l => Tglist.get isz l i) = .ok (l, 0)) := by
  unfold tgadd
  rcases Tglist.grow_spec h hb a with ⟨l1, h1, h2, h3, h4⟩ | ⟨h1, hc, h2⟩
  · left
    rw [h1]
    have hcn : l1.count = l.count := by rw [h2.count, h.count]
    have hb1 : (l1.count + 1) * isz < 2^64 := by rw [hcn]; exact Sblist.mul_lt_of hb (by omega)
    simp only [Nat.one_ne_zero, if_false]
    have hr := textend h2 h3
    have hl : i < (xs ++ [(l1.items.drop (l1.count * isz)).take isz]).length := by simp; omega
    rw [Tglist.get_spec hr hb1 hl]
    simp only [ok_bind, List.getElem_append_left hi, Nat.add_sub_cancel]
    obtain ⟨l', s1, s2, _⟩ := Tglist.add_raw h2 h3 hb1 xs[i] (h.item _ (List.getElem_mem _))
    exact ⟨l', s1, s2⟩
  · right
    rw [h2]
    exact ⟨h1, hc, rfl⟩

example : tgadd 1 (some fun _ => 9) ⟨4, 4, [1, 2, 3, 4]⟩ (fun l => Tglist.get 1 l 1) =
    .ok (⟨5, 8, [1, 2, 3, 4, 2, 9, 9, 9]⟩, 1) := by decide

/-- C145, fails for an index computed from the size: `tglist_add(l, tglist_get(l, tglist_getsize(l) - 1))`
    does not append the last item. It appends the bytes that lie behind the list in the buffer, because the
    size is read after it was incremented. -/
theorem tglist_add_last (isz : Nat) (l : TG) (xs : List (List Byte)) (h : Tglist.Spec.Rep isz l xs)
    (hb : (2 * l.count + 4) * isz < 2^64) (hc : l.count < l.capa) (a : Alloc) :
    ∃ l', tgadd isz a l (fun l => Tglist.get isz l (l.count - 1)) = .ok (l', 1) ∧
      Tglist.Spec.Rep isz l' (xs ++ [(l.items.drop (xs.length * isz)).take isz]) := by
  have hb1 : (l.count + 1) * isz < 2^64 := Sblist.mul_lt_of hb (by omega)
  unfold tgadd Tglist.grow_if_needed
  rw [if_neg (by omega)]
  simp only [Nat.one_ne_zero, if_false, Nat.add_sub_cancel]
  have hr := textend h hc
  have hl : l.count < (xs ++ [(l.items.drop (l.count * isz)).take isz]).length := by simp [h.count]
  rw [Tglist.get_spec hr hb1 hl]
  have e : (xs ++ [(l.items.drop (l.count * isz)).take isz])[l.count] = (l.items.drop (xs.length * isz)).take isz := by
    rw [List.getElem_append_right (by rw [h.count]; exact Nat.le_refl _)]
    simp [h.count]
  rw [e]
  simp only [ok_bind]
  have hlen : ((l.items.drop (xs.length * isz)).take isz).length = isz := by
    rw [← e]; exact hr.item _ (List.getElem_mem _)
  obtain ⟨l', s1, s2, _⟩ := Tglist.add_raw h hc hb1 _ hlen
  exact ⟨l', s1, s2⟩

/-- After deleting 4 from [1, 2, 3, 4] the last item is 3, but 4 comes back. -/
example : tgadd 1 none ⟨3, 4, [1, 2, 3, 4]⟩ (fun l => Tglist.get 1 l (l.count - 1)) =
    .ok (⟨4, 4, [1, 2, 3, 4]⟩, 1) := by decide

/-- C145, the same for a full list: what is appended is the content of the fresh memory, so it can be
    anything. -/
theorem tglist_add_last_full (isz : Nat) (l : TG) (xs : List (List Byte)) (h : Tglist.Spec.Rep isz l xs)
    (hb : (2 * l.count + 4) * isz < 2^64) (hc : l.count = l.capa) (y : List Byte) (hy : y.length = isz) :
    ∃ f l', tgadd isz (some f) l (fun l => Tglist.get isz l (l.count - 1)) = .ok (l', 1) ∧
      Tglist.Spec.Rep isz l' (xs ++ [y]) := by
  refine ⟨fun i => y.getD i 0, ?_⟩
  have hlen := h.items_length
  obtain ⟨l1, g1, g2, g3, g4⟩ | ⟨g1, _⟩ := Tglist.grow_spec h hb (some fun i => y.getD i 0)
  · have hcn : l1.count = l.count := by rw [g2.count, h.count]
    have hb1 : (2 * l1.count + 4) * isz < 2^64 := by rw [hcn]; exact hb
    obtain ⟨l', s1, s2⟩ := tglist_add_last isz l1 xs g2 hb1 g3 (some fun i => y.getD i 0)
    refine ⟨l', ?_, ?_⟩
    · rw [← s1]
      unfold tgadd
      rw [g1]
      conv => rhs; unfold Tglist.grow_if_needed
      rw [if_neg (show l1.count ≠ l1.capa by omega)]
    · have e : (l1.items.drop (xs.length * isz)).take isz = y := by
        unfold Tglist.grow_if_needed at g1
        rw [if_pos hc] at g1
        simp only [Ulz.realloc, Option.map_some] at g1
        have hpos := h.pos
        have hnew : l.items.length + isz ≤ szt ((if l.capa = 0 then 4 else szt (l.capa * 2)) * isz) := by
          rw [hlen, ← hc]
          have hk : l.count * 2 < 2^64 := by
            have : (2 * l.count + 4) * 1 ≤ (2 * l.count + 4) * isz := Nat.mul_le_mul (Nat.le_refl _) hpos
            omega
          rw [szt_of_lt hk]
          by_cases h0 : l.count = 0
          · rw [if_pos h0, h0]
            rw [h0] at hb
            rw [szt_of_lt (Sblist.mul_lt_of hb (by omega))]
            omega
          · rw [if_neg h0, szt_of_lt (Sblist.mul_lt_of hb (by omega)), ← Nat.succ_mul]
            exact Nat.mul_le_mul_right _ (by omega)
        cases g1
        simp only
        rw [List.take_of_length_le (show l.items.length ≤ _ by omega), show xs.length * isz = l.items.length from by rw [hlen, ← hc, h.count],
          List.drop_left]
        apply List.ext_getElem
        · simp [hy]; omega
        · intro k k1 k2
          simp [k2]
      rw [e] at s2
      exact s2
  · cases g1

/-- C145. `tglist_insert(l, tglist_get(l, i), pos)`: an item up to `pos` is inserted correctly; for an item
    behind `pos` its predecessor is inserted instead. -/
theorem tglist_insert_own (isz : Nat) (l : TG) (xs : List (List Byte)) (h : Tglist.Spec.Rep isz l xs)
    (hb : (2 * l.count + 4) * isz < 2^64) (a : Alloc) (i : Nat) (hi : i < xs.length) (pos : Nat)
    (hp : pos ≤ xs.length) :
    (∃ l', tginsert isz a l (fun l => Tglist.get isz l i) (fun _ => pos) = .ok (l', 1) ∧
      Tglist.Spec.Rep isz l'
        (xs.take pos ++ (if i ≤ pos then xs[i] else xs[i - 1]) :: xs.drop pos)) ∨
    (a = none ∧ l.count = l.capa ∧
      tginsert isz a l (fun l => Tglist.get isz l i) (fun _ => pos) = .ok (l, 0)) := by
  unfold tginsert
  rcases Tglist.grow_spec h hb a with ⟨l1, h1, h2, h3, h4⟩ | ⟨h1, hc, h2⟩
  · left
    rw [h1]
    have hcn : l1.count = l.count := by rw [h2.count, h.count]
    have hb1 : (l1.count + 1) * isz < 2^64 := by rw [hcn]; exact Sblist.mul_lt_of hb (by omega)
    simp only [Nat.one_ne_zero, if_false]
    obtain ⟨l2, g, m1, m2, m3, m4⟩ := tshift h2 h3 hb1 hp
    rw [m1]
    simp only [ok_bind]
    have hl := gap_length (g := g) hp
    have hl' : i < (xs.take pos ++ g :: xs.drop pos).length := by omega
    have hb2 : (l2.count + 1) * isz < 2^64 := by rw [m2]; exact hb1
    rw [Tglist.get_spec m3 hb2 hl']
    have e : (xs.take pos ++ g :: xs.drop pos)[i] = if i ≤ pos then xs[i] else xs[i - 1] := by
      rcases Nat.lt_trichotomy i pos with hlt | heq | hgt
      · rw [(gap_get hp hi hl').1 hlt, if_pos (by omega)]
      · rw [(gap_get hp hi hl').2.1 heq, if_pos (by omega)]
        subst heq
        exact m4 hi
      · rw [(gap_get hp hi hl').2.2 hgt, if_neg (by omega)]
    rw [e]
    simp only [ok_bind]
    obtain ⟨l', s1, s2, _⟩ := Tglist.set_spec m3 hb2 (if i ≤ pos then xs[i] else xs[i - 1])
      (by rw [← e]; exact m3.item _ (List.getElem_mem _)) (pos := pos) (by omega)
    exact ⟨l', s1, by rw [gap_set hp] at s2; exact s2⟩
  · right
    rw [h2]
    exact ⟨h1, hc, rfl⟩

/-- Inserting the last of three items in front: the middle one is inserted. -/
example : tginsert 1 none ⟨3, 4, [1, 2, 3, 0]⟩ (fun l => Tglist.get 1 l 2) (fun _ => 0) =
    .ok (⟨4, 4, [2, 1, 2, 3]⟩, 1) := by decide

end Ulz.Props

import Verif.Proofs.Stringlist
import Verif.Props.Sblist
import Verif.Props.Stringptrlist
/-! C109–C113: lists of pointers, sorting, freeing a string list. -/
set_option linter.unusedVariables false
namespace Ulz.Props
open Ulz.Stringlist Ulz.Stringlist.Spec
open Ulz.Sblist (SB)
open Ulz.Sblist.Spec (Rep TotalPreorder Sorted)

/-- C109. Any sequence of `stringlist_add_dup` calls on a new list, with any failures of `strdup` and of the growth of the
    list (`strdup` returning fresh addresses). A call returns 1, or it returns 0 and one of the two allocations failed.
    Afterwards the list has one entry for each call that returned 1, in order; `stringlist_get` gives the address of the
    copy for an index below the size and NULL for every other index; and the heap has, besides what it had before,
    exactly the zero-terminated copies of these strings: a failed call leaks nothing. -/
theorem stringlist_add_dup_history (bi : Nat) (hb : 0 < bi) (cs : List (List Byte × Option Nat × Alloc)) (h : Heap)
    (hs : ∀ c ∈ cs, 0 ∈ c.1) (hn : (cs.filterMap (fun c => c.2.1) ++ h.map Prod.fst).Nodup)
    (hx : ∀ x ∈ cs.filterMap (fun c => c.2.1), x < 2^64) (hsz : (cs.length + bi) * 8 < 2^64) :
    ∃ l0 l rs, new bi = .ok l0 ∧
      addDups h l0 cs = .ok (l, ((added cs rs).map fun e => (e.1, e.2 ++ [0])).reverse ++ h, rs) ∧
      rs.length = cs.length ∧
      (∀ i (h1 : i < rs.length) (h2 : i < cs.length), rs[i] = 1 ∧ cs[i].2.1.isSome ∨
        rs[i] = 0 ∧ (cs[i].2.1 = none ∨ cs[i].2.2 = none)) ∧
      l.count = (added cs rs).length ∧
      ∀ i, Stringlist.get l i = .ok (((added cs rs)[i]?.map Prod.fst).getD 0) := by
  obtain ⟨l0, n1, n2, n3, n4⟩ := new_ptrs hb
  obtain ⟨l, rs, r1, r2, r3, r4⟩ := addDups_spec cs l0 [] h n2 (by omega) (by rw [n3, n4]; omega) hs hn hx
  rw [List.nil_append] at r4
  have hcount : l.count = (added cs rs).length := by rw [r4.count, List.length_map]
  refine ⟨l0, l, rs, n1, r1, r2, r3, hcount, fun i => ?_⟩
  have hle : (added cs rs).length ≤ cs.length := by
    unfold added
    refine Nat.le_trans (List.length_filterMap_le _ _) ?_
    rw [List.length_zip]; omega
  rw [get_ptrs r4 (by rw [hcount]; omega), List.getElem?_map]

/-- Three calls: one succeeds, in one `strdup` fails, in one the list cannot grow. -/
def dupCalls : List (List Byte × Option Nat × Alloc) :=
  [(bytes! "ab" ++ [0, 7], some 100, some fun _ => 0), (bytes! "c" ++ [0], none, none), (bytes! "d" ++ [0], some 200, none)]

example : (∀ c ∈ dupCalls, 0 ∈ c.1) ∧ (dupCalls.filterMap (fun c => c.2.1) ++ ([50] : List Nat)).Nodup ∧
    (∀ x ∈ dupCalls.filterMap (fun c => c.2.1), x < 2^64) ∧ (dupCalls.length + 1) * 8 < 2^64 := by decide

example : addDups [(50, [1])] ⟨8, 1, 0, 0, []⟩ dupCalls =
    .ok (⟨8, 1, 1, 1, [100, 0, 0, 0, 0, 0, 0, 0]⟩, [(100, bytes! "ab" ++ [0]), (50, [1])], [1, 0, 0]) := by
  decide +kernel

/-- C110. `stringlist_foreach` executes its body once for every entry, in order, with the entry's pointer, and leaves its
    variable NULL. -/
theorem stringlist_foreach_correct (l : SB) (ps : List Nat) (h : Ptrs l ps) (hb : l.count * 8 < 2^64) :
    Stringlist.foreach l = .ok (ps, 0) := by
  unfold Stringlist.foreach foreachGet
  by_cases h0 : l.count = 0
  · rw [if_neg (by simpa using h0)]
    have : ps = [] := List.eq_nil_of_length_eq_zero (by rw [← h.count]; exact h0)
    subst this
    simpa [pure_eq_ok, ok_bind] using foreachLoop_spec h hb (l.count + 1) 0 (by simp) (by simp)
  · rw [if_pos h0, get_ptrs h hb]
    simp only [ok_bind]
    rw [foreachLoop_spec h hb (l.count + 1) 0 (by omega) (by rw [h.count]; omega)]
    simp

/-- A list with the pointers 258 and NULL and room for another one. -/
theorem ptrsDemo : Ptrs ⟨8, 3, 2, 3, [2, 1, 0, 0, 0, 0, 0, 0, 0, 0, 0, 0, 0, 0, 0, 0, 9, 9, 9, 9, 9, 9, 9, 9]⟩ [258, 0] :=
  ⟨rfl, ⟨by decide, rfl, by decide, by decide, [9, 9, 9, 9, 9, 9, 9, 9], by decide, by decide⟩, by decide⟩

example : Stringlist.foreach ⟨8, 3, 2, 3, [2, 1, 0, 0, 0, 0, 0, 0, 0, 0, 0, 0, 0, 0, 0, 0, 9, 9, 9, 9, 9, 9, 9, 9]⟩ =
    .ok ([258, 0], 0) := stringlist_foreach_correct _ _ ptrsDemo (by decide)

/-- C111. `sptrlist`: `sptrlist_get` gives the pointer stored at an index below the size and dereferences a null pointer for
    every other index; `sptrlist_set` replaces the pointer at an index below the size and returns 1, and otherwise returns 0
    and changes nothing; `sptrlist_add` appends and returns 1, or there was no room, memory ran out and it returns 0 and changes nothing. -/
theorem sptrlist_correct (l : SB) (ps : List Nat) (h : Ptrs l ps) (hbi : 0 < l.blockitems)
    (hb : (l.count + l.blockitems) * 8 < 2^64) (p : Nat) (hp : p < 2^64) (i : Nat) (a : Alloc) :
    (∀ hi : i < ps.length, sptr_get l i = .ok ps[i] ∧ ∃ l', sptr_set l p i = .ok (l', 1) ∧ Ptrs l' (ps.set i p)) ∧
    (ps.length ≤ i → sptr_get l i = .error .nullDeref ∧ sptr_set l p i = .ok (l, 0)) ∧
    ((∃ l', Stringlist.add a l p = .ok (l', 1) ∧ Ptrs l' (ps ++ [p])) ∨ (a = none ∧ l.count = l.capa ∧ Stringlist.add a l p = .ok (l, 0))) := by
  have hb' : l.count * 8 < 2^64 := by omega
  refine ⟨fun hi => ⟨?_, (set_ptrs h hb' p i hp).1 hi⟩, fun hi => ⟨?_, (set_ptrs h hb' p i hp).2 hi⟩, ?_⟩
  · rw [sptr_get_ptrs h hb', List.getElem?_eq_getElem hi]
  · rw [sptr_get_ptrs h hb', List.getElem?_eq_none hi]
  · rcases add_ptrs h hbi hb a p hp with ⟨l', h1, h2, _⟩ | h1
    · exact .inl ⟨l', h1, h2⟩
    · exact .inr h1

example : sptr_get ⟨8, 3, 2, 3, [2, 1, 0, 0, 0, 0, 0, 0, 0, 0, 0, 0, 0, 0, 0, 0, 9, 9, 9, 9, 9, 9, 9, 9]⟩ 2 = .error .nullDeref :=
  ((sptrlist_correct _ _ ptrsDemo (by decide) (by decide) 7 (by decide) 2 none).2.1 (by decide)).1

/-- C112. `sblist_sort` with a comparison function that is a total preorder: the list then holds the same items in sorted
    order, in the same memory. `sblist_bsearch` then finds an item exactly if the list held an equal one before. -/
theorem sblist_sort_correct (l : SB) (xs : List (List Byte)) (h : Rep l xs) (hb : l.count * l.itemsize < 2^64)
    (qs : (List Byte → List Byte → Int) → List (List Byte) → List (List Byte)) (hq : QsortOk qs)
    (cmp : List Byte → List Byte → Int) (hc : TotalPreorder cmp) :
    ∃ l' ys, Stringlist.sort qs l cmp = .ok l' ∧ Rep l' ys ∧ ys.Perm xs ∧ Sorted cmp ys ∧ l'.itemsize = l.itemsize ∧
      l'.blockitems = l.blockitems ∧ l'.capa = l.capa ∧
      ∀ item, ∃ r, Sblist.bsearch l' item cmp = .ok r ∧ (r = none ↔ ∀ x ∈ xs, cmp item x ≠ 0) ∧
        ∀ i, r = some i → ∃ hi : i < ys.length, cmp item ys[i] = 0 := by
  obtain ⟨l', r1, r2, r3, r4, r5⟩ := sort_spec h hb hq cmp hc
  obtain ⟨q1, q2⟩ := hq cmp xs hc
  refine ⟨l', qs cmp xs, r1, r2, q1, q2, r3, r4, r5, fun item => ?_⟩
  have hcnt : l'.count = l.count := by rw [r2.count, q1.length_eq, h.count]
  obtain ⟨r, b1, b2, b3⟩ := sblist_bsearch_correct l' (qs cmp xs) r2 (by rw [hcnt, r3]; exact hb) item cmp
  refine ⟨r, b1, ?_, b2⟩
  rw [b3 hc q2]
  exact ⟨fun hh x hx => hh x (q1.mem_iff.2 hx), fun hh x hx => hh x (q1.mem_iff.1 hx)⟩

/-- A function that meets the requirement on qsort: merge sort. -/
theorem mergeSort_ok : QsortOk fun cmp xs => xs.mergeSort fun a b => decide (cmp a b ≤ 0) := by
  intro cmp xs hc
  refine ⟨List.mergeSort_perm _ _, ?_⟩
  have := List.pairwise_mergeSort (le := fun a b => decide (cmp a b ≤ 0))
    (fun a b c h1 h2 => by simpa using hc.trans a b c (by simpa using h1) (by simpa using h2))
    (fun a b => by
      have := hc.flip a b
      simp only [Bool.or_eq_true, decide_eq_true_eq]
      omega) xs
  unfold Sorted
  exact this.imp fun h => by simpa using h

example : ∃ l', Stringlist.sort (fun cmp xs => xs.mergeSort fun a b => decide (cmp a b ≤ 0))
    ⟨2, 4, 3, 4, [3, 0, 1, 0, 2, 1, 0, 0]⟩ firstByteCmp = .ok l' ∧ l'.items.length = 8 := by
  obtain ⟨l', ys, r1, r2, r3, r4, r5, r6, r7, r8⟩ := sblist_sort_correct ⟨2, 4, 3, 4, [3, 0, 1, 0, 2, 1, 0, 0]⟩ [[3, 0], [1, 0], [2, 1]]
    ⟨by decide, rfl, by decide, by decide, [0, 0], by decide, by decide⟩ (by decide) _ mergeSort_ok firstByteCmp firstByteCmp_preorder
  exact ⟨l', r1, by rw [r2.items_length, r5, r7]; rfl⟩

/-- C113. `stringptrlist_freeall`: NULL is ignored. Otherwise, if the non-NULL pointers of the entries, the list's buffer
    (if it has one) and the list object are distinct allocations, exactly these are freed, each once. -/
theorem stringptrlist_freeall_correct (live : List Nat) (hl : live.Nodup) :
    freeall none live = .ok live ∧
    ∀ hd items es, hd ≠ 0 →
      (((es.map Prod.fst).filter (· ≠ 0)) ++ ([items].filter (· ≠ 0)) ++ [hd]).Nodup →
      (∀ p ∈ ((es.map Prod.fst).filter (· ≠ 0)) ++ ([items].filter (· ≠ 0)) ++ [hd], p ∈ live) →
      ∃ live', freeall (some (hd, items, es)) live = .ok live' ∧ live'.Nodup ∧
        ∀ p, p ∈ live' ↔ p ∈ live ∧ (p = 0 ∨ (p ∉ es.map Prod.fst ∧ p ≠ items ∧ p ≠ hd)) := by
  refine ⟨rfl, fun hd items es hhd hn hm => ?_⟩
  obtain ⟨hn1, hn2, hn3⟩ := List.nodup_append.1 hn
  obtain ⟨hn4, hn5, hn6⟩ := List.nodup_append.1 hn1
  obtain ⟨live1, f1, f2, f3⟩ := (stringptrlist_freestrings_correct es live hl).1 ⟨hn4, fun p hp h0 =>
    hm p (List.mem_append_left _ (List.mem_append_left _ (List.mem_filter.2 ⟨hp, by simpa using h0⟩)))⟩
  unfold freeall
  simp only [f1, ok_bind]
  have hhd1 : hd ∈ live1 := by
    rw [f3]
    refine ⟨hm hd (by simp), .inr fun hin => ?_⟩
    exact hn3 hd (List.mem_append_left _ (List.mem_filter.2 ⟨hin, by simpa using hhd⟩)) hd (by simp) rfl
  unfold sblist_free
  by_cases h0 : items = 0
  · rw [if_neg (by simpa using h0)]
    simp only [pure_eq_ok, ok_bind, Sblist.hfree, if_pos hhd1]
    refine ⟨_, rfl, f2.erase _, fun p => ?_⟩
    rw [f2.mem_erase_iff, f3, h0]
    constructor
    · rintro ⟨h1, h2, h3⟩
      refine ⟨h2, ?_⟩
      by_cases hp : p = 0
      · exact .inl hp
      · exact .inr ⟨h3.resolve_left hp, hp, h1⟩
    · rintro ⟨h2, h3⟩
      rcases h3 with rfl | ⟨h4, h5, h6⟩
      · exact ⟨fun h => hhd h.symm, h2, .inl rfl⟩
      · exact ⟨h6, h2, .inr h4⟩
  · rw [if_pos h0]
    have hit : items ∈ ([items].filter (· ≠ 0)) := List.mem_filter.2 ⟨by simp, by simpa using h0⟩
    have hne : items ≠ hd := fun h => hn3 items (List.mem_append_right _ hit) hd (by simp) h
    have hit1 : items ∈ live1 := by
      rw [f3]
      refine ⟨hm items (List.mem_append_left _ (List.mem_append_right _ hit)), .inr fun hin => ?_⟩
      exact hn6 items (List.mem_filter.2 ⟨hin, by simpa using h0⟩) items hit rfl
    have hhd2 : hd ∈ live1.erase items := by rw [f2.mem_erase_iff]; exact ⟨Ne.symm hne, hhd1⟩
    simp only [Sblist.hfree, if_pos hit1, pure_eq_ok, ok_bind, if_pos hhd2]
    refine ⟨_, rfl, (f2.erase _).erase _, fun p => ?_⟩
    rw [(f2.erase _).mem_erase_iff, f2.mem_erase_iff, f3]
    constructor
    · rintro ⟨h1, h4, h2, h3⟩
      refine ⟨h2, ?_⟩
      by_cases hp : p = 0
      · exact .inl hp
      · exact .inr ⟨h3.resolve_left hp, h4, h1⟩
    · rintro ⟨h2, h3⟩
      rcases h3 with rfl | ⟨h4, h5, h6⟩
      · exact ⟨fun h => hhd h.symm, fun h => h0 h.symm, h2, .inl rfl⟩
      · exact ⟨h6, h5, h2, .inr h4⟩

example : freeall (some (10, 20, [(30, 5), (0, 0), (40, 1)])) [40, 10, 99, 20, 30] = .ok [99] := by decide

end Ulz.Props

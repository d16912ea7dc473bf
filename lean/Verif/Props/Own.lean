import Verif.Proofs.Own
/-! C149-C152: the memory of type-generic lists and maps that hold blocks the program owns. -/
namespace Ulz.Props
open Ulz.Life (Mem alloc free Fresh alloc_spec free_spec)
open Ulz.Own

/-! ### C149 -/

/-- C149: whatever is done with a tglist of owned blocks and whichever allocations fail, `tglist_free_values` and `tglist_free` are
    permitted and leave exactly the blocks that were allocated before. -/
theorem tglist_owned_frees (ok : Nat → Bool) (m : Mem) (hm : Fresh m) (ops : List Op) :
    ∃ m', lifetime ok m ops true = .ok m' ∧ m'.live.Perm m.live := by
  unfold lifetime
  rcases alloc_spec ok hm with ⟨_, e, f⟩ | ⟨_, e, f⟩
  · rw [e] at f ⊢
    simp only [if_true, show ¬(m.next + 1 = 0) by omega, if_false]
    obtain ⟨m1, t, e1, I1⟩ := run_spec ok ops (t := tinit) (tinit_inv f)
    obtain ⟨m2, t2, e2, I2⟩ := tfreeValues_spec I1
    obtain ⟨m3, e3, p3, f3⟩ := tfreeItems_spec I2
    obtain ⟨m4, e4, p4, _⟩ := free_spec p3 (by omega) f3
    simp only [e1, ok_bind, e2, e3, e4]
    exact ⟨m4, rfl, p4⟩
  · rw [e]
    exact ⟨_, rfl, List.Perm.refl _⟩

/-- C149: without `tglist_free_values` exactly the items that are still in the list stay allocated. -/
theorem tglist_items_stay (ok : Nat → Bool) (m : Mem) (hm : Fresh m) (hk : ok m.next = true) (ops : List Op) :
    ∃ m1 t m', run ok (alloc ok m).1 tinit ops = .ok (m1, t) ∧ lifetime ok m ops false = .ok m' ∧ m'.live.Perm (t.vals ++ m.live) := by
  unfold lifetime
  rcases alloc_spec ok hm with ⟨_, e, f⟩ | ⟨h, e, f⟩
  · rw [e] at f ⊢
    simp only [Bool.false_eq_true, show ¬(m.next + 1 = 0) by omega, if_false]
    obtain ⟨m1, t, e1, I1⟩ := run_spec ok ops (t := tinit) (tinit_inv f)
    obtain ⟨m3, e3, p3, f3⟩ := tfreeItems_spec I1
    obtain ⟨m4, e4, p4, _⟩ := free_spec (p := m.next + 1) (r := t.vals ++ m.live) (p3.trans (by counting)) (by omega) f3
    simp only [e1, ok_bind, pure_eq_ok, e3, e4]
    exact ⟨m1, t, m4, rfl, rfl, p4⟩
  · rw [h] at hk; cases hk

/-- C149: the same for a tgilist, if the program leaves deleted items to `tgilist_free_values`. -/
theorem tgilist_owned_frees (ok : Nat → Bool) (m : Mem) (hm : Fresh m) (ops : List Op) :
    ∃ m', ilifetime ok m ops true = .ok m' ∧ m'.live.Perm m.live := by
  unfold ilifetime
  rcases alloc_spec ok hm with ⟨_, e, f⟩ | ⟨_, e, f⟩
  · rw [e] at f ⊢
    simp only [if_true, show ¬(m.next + 1 = 0) by omega, if_false]
    obtain ⟨m1, t, e1, I1⟩ := irun_spec ok ops (t := ⟨tinit, tinit⟩) (init_pinv f)
    obtain ⟨m2, t2, e2, I2⟩ := I1.symm.freeValues
    obtain ⟨m3, m3', e3, e3', p3, f3⟩ := I2.symm.freeBoth
    obtain ⟨m4, e4, p4, _⟩ := free_spec p3 (by omega) f3
    simp only [e1, ok_bind, e2, ifreeItems, e3, e3', e4]
    exact ⟨m4, rfl, p4⟩
  · rw [e]
    exact ⟨_, rfl, List.Perm.refl _⟩

/-- C149: a deleted item still belongs to the tgilist: a program that frees the item it deletes, as it has to with a tglist, makes
    `tgilist_free_values` free it again. -/
theorem tgilist_deleted_item_freed_twice (ok : Nat → Bool) (m : Mem) (hm : Fresh m) (ops : List Op) (m1 : Mem) (t : TI)
    (h : irun ok m ⟨tinit, tinit⟩ ops = .ok (m1, t)) (i : Nat) (hi : i < t.index.vals.length) :
    ∃ x m2 t2, tget t.index i = .ok x ∧ ∃ p, tget t.items x = .ok p ∧ free m1 p = .ok m2 ∧ idel t i = .ok t2 ∧
      tfreeValues m2 t2.items = .error .badFree := by
  obtain ⟨m1', t', e1, I1⟩ := irun_spec ok ops (t := ⟨tinit, tinit⟩) (init_pinv hm)
  rw [h] at e1
  simp only [Except.ok.injEq, Prod.mk.injEq] at e1
  obtain ⟨rfl, rfl⟩ := e1
  have hx : t.index.vals[i] < t.items.vals.length := irun_idx ok ops h (by simp [IdxOk, tinit]) _ (List.getElem_mem hi)
  refine ⟨t.index.vals[i], ⟨m1.live.erase t.items.vals[t.index.vals[i]], m1.next⟩, { t with index := { t.index with vals := t.index.vals.eraseIdx i } },
    tget_spec hi, t.items.vals[t.index.vals[i]], tget_spec hx, ?_, ?_, ?_⟩
  · have hmem : t.items.vals[t.index.vals[i]] ∈ m1.live := I1.inv.perm.mem_iff.2 (by simp)
    unfold free
    rw [if_neg (by have := (I1.inv.fresh.le _ hmem).1; omega), if_pos hmem]
    rfl
  · unfold idel tdel
    rw [if_pos hi]
    rfl
  · unfold tfreeValues
    rw [freeAll_bad t.items.vals.reverse (p := t.items.vals[t.index.vals[i]]) (by simp) ?_ ?_]
    · rfl
    · have hmem : t.items.vals[t.index.vals[i]] ∈ m1.live := I1.inv.perm.mem_iff.2 (by simp)
      have := (I1.inv.fresh.le _ hmem).1
      omega
    · intro hc
      exact absurd hc (by
        simp only
        intro hc
        exact (List.Nodup.mem_erase_iff I1.inv.fresh.nodup).1 hc |>.1 rfl)

example : lifetime (fun _ => true) ⟨[7], 7⟩ [.add, .insert 0, .add, .del 1, .add, .add, .insert 2] true = .ok ⟨[7], 16⟩ := by decide
example : lifetime (fun n => n != 9) ⟨[7], 7⟩ [.add, .add, .del 0, .add] true = .ok ⟨[7], 13⟩ := by decide
example : lifetime (fun n => n != 9) ⟨[7], 7⟩ [.add, .add, .del 0, .add] false = .ok ⟨[13, 7], 13⟩ := by decide
example : ilifetime (fun n => n != 9) ⟨[7], 7⟩ [.add, .add, .del 0, .add, .insert 0] true = .ok ⟨[7], 15⟩ := by decide
example : Fresh ⟨[7], 7⟩ := ⟨by decide, by decide⟩
example : ∃ m t, irun (fun _ => true) ⟨[7], 7⟩ ⟨tinit, tinit⟩ [.add, .insert 0, .del 1] = .ok (m, t) ∧ 0 < t.index.vals.length ∧
    t.items.vals.length = 2 := ⟨_, _, rfl, by decide, by decide⟩

/-! ### C150 -/

/-- C150: whatever is done with a bmap whose keys and values are blocks it owns, inserting with `bmap_insert_nocheck`, and whichever
    allocations fail: the number of entries is the number the program counted, and `bmap_fini` is permitted and leaves, besides the
    blocks that were allocated before, exactly the keys if bit 0 of the flags is not set and the values if bit 1 is not set. -/
theorem bmap_owned_frees (ok : Nat → Bool) (m : Mem) (hm : Fresh m) (ops : List MOp) (flags : Nat) :
    ∃ m1 b n m', mrun viaNocheck ok m binit 0 ops = .ok (m1, b, n) ∧ b.keys.vals.length = n ∧ b.values.vals.length = n ∧
      fini m1 b flags = .ok m' ∧
      m'.live.Perm ((if flags &&& 1 ≠ 0 then [] else b.keys.vals) ++ (if flags &&& 2 ≠ 0 then [] else b.values.vals) ++ m.live) := by
  obtain ⟨m1, b, n, lost, e1, I1⟩ := mrun_spec insOk_nocheck ok ops (m := m) (b := binit) (n := 0) (lost := []) (base := m.live)
    ⟨⟨init_pinv hm, rfl⟩, rfl, fun _ => rfl⟩
  have h0 := I1.none rfl
  subst h0
  obtain ⟨m2, e2, _, p2⟩ := fini_spec I1.inv flags
  have hc := I1.count
  have hl := I1.inv.len
  simp only [List.length_nil] at hc
  exact ⟨m1, b, n, m2, e1, by omega, by omega, e2, p2⟩

/-- C150: in particular `bmap_fini` with flags 3 gives everything back. -/
theorem bmap_owned_frees_all (ok : Nat → Bool) (m : Mem) (hm : Fresh m) (ops : List MOp) :
    ∃ m1 b n m', mrun viaNocheck ok m binit 0 ops = .ok (m1, b, n) ∧ fini m1 b 3 = .ok m' ∧ m'.live.Perm m.live := by
  obtain ⟨m1, b, n, m', e1, _, _, e2, p⟩ := bmap_owned_frees ok m hm ops 3
  exact ⟨m1, b, n, m', e1, e2, p⟩

/-- C150: the same for an hbmap with any number of buckets, from `hbmap_new` to `hbmap_fini` and `free`, whichever bucket each key
    belongs to. -/
theorem hbmap_owned_frees (ok : Nat → Bool) (m : Mem) (hm : Fresh m) (nb : Nat) (ops : List (Nat × MOp)) :
    ∃ m', hlifetime ok m nb ops 3 = .ok m' ∧ m'.live.Perm m.live := by
  unfold hlifetime
  rcases alloc_spec ok hm with ⟨_, e, f⟩ | ⟨_, e, f⟩
  · rw [e] at f ⊢
    simp only [show ¬(m.next + 1 = 0) by omega, if_false]
    obtain ⟨m1, h, e1, I1⟩ := hrun_spec ok ops (hinit_inv nb f)
    obtain ⟨m2, e2, f2, p2⟩ := hfini_spec 3 h I1
    obtain ⟨m3, e3, p3, _⟩ := free_spec (p := m.next + 1) (r := m.live) p2 (by omega) f2
    simp only [e1, ok_bind, e2, e3]
    exact ⟨m3, rfl, p3⟩
  · rw [e]
    exact ⟨_, rfl, List.Perm.refl _⟩

/-- C150: and with any flags exactly the keys and values that are still in the map stay allocated, if the flags do not include them. -/
theorem hbmap_owned_stay (ok : Nat → Bool) (m : Mem) (hm : Fresh m) (hk : ok m.next = true) (nb : Nat) (ops : List (Nat × MOp)) (flags : Nat) :
    ∃ m1 h m', hrun ok (alloc ok m).1 (List.replicate nb binit) ops = .ok (m1, h) ∧ hlifetime ok m nb ops flags = .ok m' ∧
      m'.live.Perm ((if flags &&& 1 ≠ 0 then [] else h.flatMap fun b => b.keys.vals) ++
        (if flags &&& 2 ≠ 0 then [] else h.flatMap fun b => b.values.vals) ++ m.live) := by
  unfold hlifetime
  rcases alloc_spec ok hm with ⟨_, e, f⟩ | ⟨h, e, f⟩
  · rw [e] at f ⊢
    simp only [show ¬(m.next + 1 = 0) by omega, if_false]
    obtain ⟨m1, h, e1, I1⟩ := hrun_spec ok ops (hinit_inv nb f)
    obtain ⟨m2, e2, f2, p2⟩ := hfini_spec flags h I1
    obtain ⟨m3, e3, p3, _⟩ := free_spec (p := m.next + 1)
      (r := (if flags &&& 1 ≠ 0 then [] else h.flatMap fun b => b.keys.vals) ++
        (if flags &&& 2 ≠ 0 then [] else h.flatMap fun b => b.values.vals) ++ m.live) (p2.trans (by counting)) (by omega) f2
    simp only [e1, ok_bind, e2, e3]
    exact ⟨m1, h, m3, rfl, rfl, p3⟩
  · rw [h] at hk; cases hk

example : hlifetime (fun n => n != 9) ⟨[7], 7⟩ 3 [(0, .put none 0), (2, .put none 0), (2, .put none 1), (2, .put (some 0) 0), (2, .remove 0)] 3 =
    .ok ⟨[7], 18⟩ := by decide
example : hlifetime (fun n => n != 9) ⟨[7], 7⟩ 3 [(0, .put none 0), (2, .put none 0), (2, .put none 1), (2, .put (some 0) 0), (2, .remove 0)] 0 =
    .ok ⟨[16, 15, 7], 18⟩ := by decide

/-! ### C151 -/

/-- C151: a program that relies on the result of `bmap_insert` loses a key and a value for each entry it thinks the map has but which it
    has not: `bmap_fini` with flags 3 leaves exactly these blocks besides those that were allocated before. -/
theorem bmap_insert_leaks (ok : Nat → Bool) (m : Mem) (hm : Fresh m) (ops : List MOp) :
    ∃ m1 b n m' lost, mrun insert_new ok m binit 0 ops = .ok (m1, b, n) ∧ fini m1 b 3 = .ok m' ∧ m'.live.Perm (lost ++ m.live) ∧
      lost.length = 2 * (n - b.keys.vals.length) ∧ b.keys.vals.length ≤ n := by
  obtain ⟨m1, b, n, lost, e1, I1⟩ := mrun_spec insOk_insert ok ops (m := m) (b := binit) (n := 0) (lost := []) (base := m.live)
    ⟨⟨init_pinv hm, rfl⟩, rfl, fun h => by cases h⟩
  obtain ⟨m2, e2, _, p2⟩ := fini_spec I1.inv 3
  have hc := I1.count
  exact ⟨m1, b, n, m2, lost, e1, e2, p2, by omega, by omega⟩

/-- C151: it happens when the array of the keys grows and that of the values does not: `bmap_insert` of a first entry returns an index, the
    map stays empty, and both blocks are lost. -/
theorem bmap_insert_leak_witness (m : Mem) (hm : Fresh m) (ok : Nat → Bool) (h0 : ok m.next = true) (h1 : ok (m.next + 1) = true)
    (h2 : ok (m.next + 2) = true) (h3 : ok (m.next + 3) = false) :
    ∃ m1 b m', mrun insert_new ok m binit 0 [.put none 0] = .ok (m1, b, 1) ∧ b.keys.vals = [] ∧ fini m1 b 3 = .ok m' ∧
      m'.live.Perm ([m.next + 1, m.next + 2] ++ m.live) := by
  have e : mrun insert_new ok m binit 0 [.put none 0] =
      .ok (⟨[m.next + 3, m.next + 2, m.next + 1] ++ m.live, m.next + 4⟩, ⟨⟨m.next + 3, 4, []⟩, ⟨0, 0, []⟩⟩, 1) := by
    simp [mrun, mstep, alloc, h0, h1, insert_new, insert_nocheck, tinsert, tgrow, Life.realloc, binit, tinit, h2, h3, tdel]
    exact fun h => absurd (hm.le 0 h).1 (by omega)
  have e2 : fini ⟨[m.next + 3, m.next + 2, m.next + 1] ++ m.live, m.next + 4⟩ ⟨⟨m.next + 3, 4, []⟩, ⟨0, 0, []⟩⟩ 3 =
      .ok ⟨[m.next + 2, m.next + 1] ++ m.live, m.next + 4⟩ := by
    simp [fini, tfreeValues, freeAll, tfreeItems, free]
  exact ⟨_, _, _, e, rfl, e2, List.Perm.append_right _ (List.Perm.swap _ _ _)⟩

/-! ### C152 -/

/-- C152: with enough memory `hbmap_new` makes a map exactly if its size can be represented; otherwise it writes behind the block it
    allocated. The size is 16 bytes and 80 for each bucket. -/
theorem hbmap_new_buckets (n : Nat) (hn : n < 2 ^ 64) :
    (hbmap_new true n = .ok true ↔ 16 + 80 * n < 2 ^ 64) ∧ (hbmap_new true n = .error .oobWrite ↔ 2 ^ 64 ≤ 16 + 80 * n) := by
  rw [hbmap_new_spec n hn]
  by_cases h : 16 + 80 * n < 2 ^ 64
  · rw [if_pos h]
    exact ⟨⟨fun _ => h, fun _ => rfl⟩, ⟨fun h => (by cases h), fun h => (by omega)⟩⟩
  · rw [if_neg h]
    exact ⟨⟨fun h => (by cases h), fun h' => absurd h' h⟩, ⟨fun _ => by omega, fun _ => rfl⟩⟩

/-- C152: without memory there is no map. -/
theorem hbmap_new_refused (n : Nat) : hbmap_new false n = .ok false := rfl

example : hbmap_new true 230584300921369396 = .error .oobWrite := ((hbmap_new_buckets _ (by decide)).2).2 (by decide)
example : hbmap_new true 32 = .ok true := ((hbmap_new_buckets _ (by decide)).1).2 (by decide)

end Ulz.Props

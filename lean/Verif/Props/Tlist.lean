import Verif.Proofs.Tlist
/-! C31–C35: the treap list `tlist`. -/
set_option linter.unusedVariables false
namespace Ulz.Props
open Ulz.Tlist Ulz.Tlist.Spec

/-- C31 and C32. Start from a new list and make any calls with any allocation failures (at most 2^32 - 1
    of them, so that the size always fits `unsigned`): no call has undefined behaviour or recurses deeper
    than the size plus two; every result is that of the same call on a mathematical list; and at the end
    the heap holds exactly one tree, with distinct nodes, whose in-order items are the mathematical list,
    whose stored counts are the subtree sizes, whose priorities are ordered, and whose nodes are the only
    ones still allocated (deleting frees exactly the unlinked node). -/
theorem tlist_refines_list (itemsize : Nat) (ext : List Nat) (ops : List Op) (hn : ops.length < 2^32)
    (hv : Valid (tlist_new itemsize ext) ops) :
    ∃ t' rs T xs, run (tlist_new itemsize ext) ops = .ok (t', rs) ∧ Steps [] ops xs rs ∧ WF t' T ∧
      T.items = xs := by
  obtain ⟨t', rs, T, h1, h2, h3, _⟩ := run_spec ops _ _ (new_wf itemsize ext) (by simp [Tr.size]; exact hn) hv
  exact ⟨t', rs, T, T.items, h1, h2, h3, rfl⟩

/-- The same from any well-formed list, so that it also covers continuing a history. -/
theorem tlist_refines_list_from (t : TL) (T : Tr) (h : WF t T) (ops : List Op)
    (hn : T.size + ops.length < 2^32) (hv : Valid t ops) :
    ∃ t' rs T', run t ops = .ok (t', rs) ∧ Steps T.items ops T'.items rs ∧ WF t' T' := by
  obtain ⟨t', rs, T', h1, h2, h3, _⟩ := run_spec ops t T h hn hv
  exact ⟨t', rs, T', h1, h2, h3⟩

/-- A demo history: three insertions (one in front), a failing allocation, queries and a deletion. -/
def tlistDemo : List Op :=
  [.append [10] (some 100), .append [20] none, .append [30] (some 200), .insert 0 [5] (some 300), .insert 7 [9] (some 400),
   .get 1, .get 3, .delete 1, .getsize, .get 1]

example : (run (tlist_new 1 []) tlistDemo).map (·.2) =
    .ok [.int 1, .int 0, .int 1, .int 1, .int 0, .item (some [10]), .item none, .int 1, .int 2, .item (some [30])] := by
  decide +kernel

/-- The first two calls of the demo are allowed. -/
example : Valid (tlist_new 1 []) (tlistDemo.take 2) := by
  intro pre op post he t' rs hr
  match pre, he with
  | [], he => cases he; cases hr; simp [OpOk, Fresh, tlist_new]
  | [_], he =>
    cases he
    refine ⟨?_, by simp⟩
    have : t'.itemsize = 1 := by
      have h1 : (run (tlist_new 1 []) [.append [10] (some 100)]).map (·.1.itemsize) = .ok 1 := by decide +kernel
      rw [hr] at h1
      simpa [Except.map] using h1
    simp [this]
  | _ :: _ :: _, he => have := congrArg List.length he; simp [tlistDemo] at this

/-- C31, single call: insertion in range with memory available. -/
theorem tlist_insert_correct (t : TL) (T : Tr) (h : WF t T) (hs : T.size + 1 < 2^32) (idx : Nat) (hi : idx ≤ T.size)
    (n : Nat) (hf : Fresh t n) (x : List Byte) (hx : x.length = t.itemsize) :
    ∃ t' T', tlist_insert t idx x (some n) = .ok (t', 1) ∧ WF t' T' ∧
      T'.items = T.items.take idx ++ x :: T.items.drop idx := by
  obtain ⟨t', T', h1, h2, _, h3⟩ := Tlist.insert_spec h hs hi hf hx
  exact ⟨t', T', h1, h2, h3⟩

/-- C33. The documented NULL for an index beyond the end is not delivered: for every index `tlist_get`
    returns the address of the item at the index reduced modulo 2^32 if there is one, and otherwise the
    non-null address 24, which is not inside any node. In particular index 2^32 yields the first item. -/
theorem tlist_get_out_of_range (t : TL) (T : Tr) (h : WF t T) (hs : T.size < 2^32) (idx : Nat) :
    (∀ hi : idx % 2^32 < T.items.length, ∃ a, tlist_get t idx = .ok (a + 24) ∧ t.heap.live a = true ∧
      t.heap.data a = T.items[idx % 2^32]) ∧
    (T.items.length ≤ idx % 2^32 → tlist_get t idx = .ok 24 ∧ content t 24 = none) := by
  have hg := Tlist.get_spec h hs idx
  have hd := has_data h.has
  have hl1 := addrs_length T
  have hl2 := items_length T
  constructor
  · intro hi
    have hi' : idx % 2^32 < T.addrs.length := by omega
    rw [List.getElem?_eq_getElem hi'] at hg
    refine ⟨T.addrs[idx % 2^32], hg, (h.live _).2 (List.getElem_mem hi'), ?_⟩
    simp only [← hd, List.getElem_map]
  · intro hi
    rw [List.getElem?_eq_none (by omega)] at hg
    refine ⟨hg, ?_⟩
    have := content_spec h (idx % 2^32)
    rw [List.getElem?_eq_none (by omega), List.getElem?_eq_none (by omega)] at this
    exact this

/-- A well-formed one-item list: out-of-range index 1 gives 24, index 2^32 gives the item. -/
example : ∃ t, tlist_append (tlist_new 1 []) [7] (some 100) = .ok (t, 1) ∧ tlist_get t 1 = .ok 24 ∧
    tlist_get t (2^32) = .ok 124 := ⟨_, rfl, by decide +kernel, by decide +kernel⟩

/-- C34. Deleting deeply at a valid index passes the address of the stored bytes, which no allocation
    returned, to `free` (item size at least one byte; documented use is the size of a pointer). -/
theorem tlist_delete_deep_bad_free (t : TL) (T : Tr) (h : WF t T) (hs : T.size < 2^32) (hsz : 0 < t.itemsize)
    (idx : Nat) (hi : idx < T.size) : tlist_delete_impl t idx true = .error .badFree := by
  unfold tlist_delete_impl
  rw [getsize_spec h]
  simp only [ok_bind]
  rw [if_neg (by omega), show u32 idx = idx from Nat.mod_eq_of_lt (by omega), h.root,
    getitem_spec _ _ _ _ _ h.has (by simp [depth]) (by omega) (by omega)]
  simp only [ok_bind, Nat.sub_zero, if_true]
  have hlen : idx < T.addrs.length := by rw [addrs_length]; exact hi
  rw [List.getElem?_eq_getElem hlen]
  simp only [Option.getD_some]
  have hlive := (h.live _).2 (List.getElem_mem hlen)
  have hno : ¬ (t.heap.live (dataPtr T.addrs[idx]) = true ∨ dataPtr T.addrs[idx] ∈ t.heap.ext) := by
    intro hb
    have := h.sep _ _ hlive hb
    simp only [dataPtr, hdr] at this
    omega
  simp only [not_or] at hno
  unfold hfree
  rw [if_neg hno.1, if_neg hno.2]
  rfl

/-- C34, hence `tlist_free_items_deep` on every non-empty list. -/
theorem tlist_free_items_deep_bad_free (t : TL) (T : Tr) (h : WF t T) (hs : T.size < 2^32) (hsz : 0 < t.itemsize)
    (h0 : T.size ≠ 0) : tlist_free_items t true = .error .badFree := by
  unfold tlist_free_items freeItemsLoop
  rw [getsize_spec h]
  simp only [ok_bind, getsize_spec h]
  rw [if_pos h0, tlist_delete_deep_bad_free t T h hs hsz 0 (by omega)]
  rfl

/-- C35. `tlist_free_items` terminates, leaves an empty list and nothing allocated: since freeing an
    address that is not allocated is an error, every node was freed exactly once; the user's own
    allocations are untouched. -/
theorem tlist_free_items_correct (t : TL) (T : Tr) (h : WF t T) (hs : T.size < 2^32) :
    ∃ t', tlist_free_items t false = .ok t' ∧ tlist_getsize t' = .ok 0 ∧ (∀ a, t'.heap.live a = false) ∧
      t'.heap.ext = t.heap.ext := by
  unfold tlist_free_items
  rw [getsize_spec h]
  simp only [ok_bind]
  obtain ⟨t', e1, e2, e3⟩ := freeItemsLoop_spec (T.size + 1) t T h hs (by omega)
  refine ⟨t', e1, by rw [getsize_spec e2]; rfl, ?_, e3⟩
  intro a
  have := e2.live a
  simp [Tr.addrs] at this
  exact this

/-- The demo history ends in a list with two items, one of them freed along the way. -/
example : ((run (tlist_new 1 []) tlistDemo).bind fun p => tlist_free_items p.1 false).map (fun t => [100, 200, 300].map t.heap.live) =
    .ok [false, false, false] := by decide +kernel

end Ulz.Props

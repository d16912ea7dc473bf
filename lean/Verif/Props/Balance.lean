import Verif.Proofs.BalanceAvg
/-! C194: how deep the treap list is, for every history and on average. -/
set_option linter.unusedVariables false
namespace Ulz.Props
open Ulz.Tlist Ulz.Tlist.Spec
open scoped Nat

/-- C194. The priorities the generator draws repeat with period 2^31 exactly: two draws are equal if and only if their numbers
    differ by a multiple of 2^31. So the first 2^31 items ever inserted all have different priorities. -/
theorem tlist_priorities_distinct (i j : Nat) : draw i = draw j ↔ i % 2^31 = j % 2^31 := by
  have key : ∀ i j, i ≤ j → (draw i = draw j ↔ i % 2^31 = j % 2^31) := by
    intro i j h
    obtain ⟨n, rfl⟩ := Nat.le.dest h
    rw [eq_comm, draw_eq]
    constructor
    · rintro ⟨k, rfl⟩; omega
    · intro h; exact ⟨n / 2^31, by omega⟩
  rcases Nat.le_total i j with h | h
  · exact key i j h
  · rw [eq_comm, key j i h, eq_comm]

example : draw 0 = 1799103014 ∧ draw 1 = 174476903 := by decide +kernel

/-- C194. After every history of calls on a new list, with any failing allocations, the priorities of the items are those the
    history determines, and looking up the item at `i` needs room for exactly as many nested calls as there are items on the way
    to it. With less room the stack overflows; with that much or more the result is that of `tlist_get`. -/
theorem tlist_lookup_calls (itemsize : Nat) (ext : List Nat) (ops : List Op) (hn : ops.length < 2^32)
    (hv : Valid (tlist_new itemsize ext) ops) :
    ∃ t rs, run (tlist_new itemsize ext) ops = .ok (t, rs) ∧ tlist_getsize t = .ok (priorities ops).length ∧
      ∀ i < (priorities ops).length, ∀ d,
        (tlist_get_room d t i = .error .hang ↔ d < wayLength (priorities ops) i) ∧
        (wayLength (priorities ops) i ≤ d → tlist_get_room d t i = tlist_get t i) := by
  obtain ⟨t, rs, T, h1, h2, h3⟩ := run_shape ops _ _ _ (new_shape itemsize ext) (by simpa using hn) hv
  have hsz := h2.size
  simp only [List.length_nil, Nat.zero_add] at h3
  have hlt : (priorities ops).length < 2^32 := Nat.lt_of_le_of_lt h3 hn
  refine ⟨t, rs, h1, by rw [getsize_spec h2.wf, hsz]; rfl, ?_⟩
  intro i hi d
  have hang : ∀ d, tlist_get_room d t i = .error .hang ↔ d < wayLength (priorities ops) i := by
    intro d
    unfold tlist_get_room
    rw [bind_hang (by intro a; simp [pure_eq_ok]), show u32 i = i from Nat.mod_eq_of_lt (by omega)]
    exact shape_lookup h2 hlt hi d
  refine ⟨hang d, fun hd => ?_⟩
  have e : tlist_get t i = tlist_get_room (depth T.size) t i := by
    unfold tlist_get tlist_get_room
    rw [getsize_spec h2.wf]
    rfl
  rw [e]
  refine keep_all (f := fun d => tlist_get_room d t i) (fun d h => get_room_keep d t i h) (fun h => by have := (hang d).1 h; omega) ?_
  rw [← e, Tlist.get_spec h2.wf (by rw [hsz]; exact hlt) i]
  simp

/-- C194. After every history, an insertion at `idx` with memory available needs room for exactly one more nested call than there
    are items that can be seen from the gap between the items before `idx` and the others. With less room the stack overflows; with
    that much or more the insertion does what `tlist_insert` does. -/
theorem tlist_insert_calls (itemsize : Nat) (ext : List Nat) (ops : List Op) (hn : ops.length + 1 < 2^32)
    (hv : Valid (tlist_new itemsize ext) ops) :
    ∃ t rs, run (tlist_new itemsize ext) ops = .ok (t, rs) ∧
      ∀ idx ≤ (priorities ops).length, ∀ (x : List Byte) (a : Nat), x.length = t.itemsize → Fresh t a → ∀ d,
        (tlist_insert_room d t idx x (some a) = .error .hang ↔ d < seen (priorities ops) idx idx + 1) ∧
        (seen (priorities ops) idx idx + 1 ≤ d → tlist_insert_room d t idx x (some a) = tlist_insert t idx x (some a)) := by
  obtain ⟨t, rs, T, h1, h2, h3⟩ := run_shape ops _ _ _ (new_shape itemsize ext) (by simp; omega) hv
  have hsz := h2.size
  simp only [List.length_nil, Nat.zero_add] at h3
  have hlt : (priorities ops).length + 1 < 2^32 := by unfold priorities; omega
  have hsz' : T.size = (priorities ops).length := hsz
  refine ⟨t, rs, h1, ?_⟩
  intro idx hi x a hx hf d
  have hang : ∀ d, tlist_insert_room d t idx x (some a) = .error .hang ↔ d < seen (priorities ops) idx idx + 1 := by
    intro d
    rw [insert_room_hang h2.wf (by omega) (by omega) hf hx d, sc_eq T h2.strict idx (by omega), h2.prios]
    rfl
  refine ⟨hang d, fun hd => ?_⟩
  have e : tlist_insert t idx x (some a) = tlist_insert_room (depth T.size) t idx x (some a) := by
    unfold tlist_insert tlist_insert_room
    rw [getsize_spec h2.wf]
    rfl
  rw [e]
  refine keep_all (f := fun d => tlist_insert_room d t idx x (some a)) (fun d h => insert_room_keep d t idx x _ h)
    (fun h => by have := (hang d).1 h; omega) ?_
  obtain ⟨t', T', r, _⟩ := Tlist.insert_spec h2.wf (by omega) (idx := idx) (by omega) hf hx
  rw [← e, r]
  simp

/-- C194. After every history, deleting the item at `i` needs room for at least as many nested calls as there are items on the way
    to it, and two more than the items that can be seen from its place are enough: with that much room or more the deletion does
    what `tlist_delete` does. -/
theorem tlist_delete_calls (itemsize : Nat) (ext : List Nat) (ops : List Op) (hn : ops.length < 2^32)
    (hv : Valid (tlist_new itemsize ext) ops) :
    ∃ t rs, run (tlist_new itemsize ext) ops = .ok (t, rs) ∧
      ∀ i < (priorities ops).length, ∀ d,
        (d < wayLength (priorities ops) i → tlist_delete_room d t i = .error .hang) ∧
        (seen (priorities ops) i (i + 1) + 2 ≤ d → tlist_delete_room d t i = tlist_delete_impl t i false) := by
  obtain ⟨t, rs, T, h1, h2, h3⟩ := run_shape ops _ _ _ (new_shape itemsize ext) (by simpa using hn) hv
  have hsz := h2.size
  simp only [List.length_nil, Nat.zero_add] at h3
  have hlt : (priorities ops).length < 2^32 := Nat.lt_of_le_of_lt h3 hn
  have hsz' : T.size = (priorities ops).length := hsz
  refine ⟨t, rs, h1, ?_⟩
  intro i hi d
  have hang := fun d => delete_room_hang h2.wf (by omega) (i := i) (by omega) d
  have hw : way T i = wayLength (priorities ops) i := by rw [way_eq T h2.strict i (by omega), h2.prios]; rfl
  have ha : around T i = seen (priorities ops) i (i + 1) := by rw [around_eq T h2.strict i (by omega), h2.prios]; rfl
  refine ⟨fun hd => (hang d).2 ?_, fun hd => ?_⟩
  · have := way_le_rc T i (by omega); omega
  · have hr := rc_le T i (by omega)
    have e : tlist_delete_impl t i false = tlist_delete_room (depth T.size) t i := by
      unfold tlist_delete_impl tlist_delete_room
      rw [getsize_spec h2.wf]
      rfl
    rw [e]
    refine keep_all (f := fun d => tlist_delete_room d t i) (fun d h => delete_room_keep d t i h)
      (fun h => by have := (hang d).1 h; omega) ?_
    obtain ⟨t', T', r, _⟩ := Tlist.delete_spec h2.wf (by omega) (idx := i) (by omega)
    rw [← e, r]
    simp

/-- `orders n` lists each sequence of `n` indices at which `n` items can be inserted one after the other into a new list (number
    `k`, counted from 0, at an index up to `k`), once; there are `n!`. -/
theorem tlist_orders (n : Nat) :
    (∀ s, s ∈ orders n ↔ s.length = n ∧ ∀ k < n, s.getD k 0 ≤ k) ∧ (orders n).Nodup ∧ (orders n).length = n ! :=
  ⟨fun _ => orders_mem, orders_nodup, orders_length n⟩

/-- C194. On average over all ways to insert `n` items (`n` up to 2^31), looking up the item at `i` makes
    H(i+1) + H(n-i) - 1 nested calls, where H(k) = 1 + 1/2 + ... + 1/k, which is at most 2 log2 n + 1. `calls s` is the number of
    nested calls after insertions at the indices `s`, whatever the items are and wherever `malloc` puts them. -/
theorem tlist_average_lookup (n i : Nat) (hn : n ≤ 2^31) (hi : i < n) :
    ∃ calls : List Nat → Nat,
      (∀ s ∈ orders n, ∀ (itemsize : Nat) (cs : List (Nat × List Byte × Nat)), cs.map Prod.fst = s → Lawful itemsize cs →
        ∃ t, run (tlist_new itemsize []) (inserts cs) = .ok (t, List.replicate n (.int 1)) ∧
          ∀ d, tlist_get_room d t i = .error .hang ↔ d < calls s) ∧
      ((orders n).map fun s => (calls s : ℚ)).sum = (orders n).length * (harmonic (i + 1) + harmonic (n - i) - 1) ∧
      harmonic (i + 1) + harmonic (n - i) - 1 ≤ 2 * (Nat.log2 n : ℚ) + 1 := by
  refine ⟨fun s => wayLength (arrange s).2 i, ?_, by rw [average hn hi, orders_length], ?_⟩
  · intro s hs itemsize cs hc hl
    obtain ⟨t, T, r1, r2⟩ := order_shape (by omega) hs hc hl
    refine ⟨t, r1, fun d => ?_⟩
    have := arrange_length hs
    unfold tlist_get_room
    rw [bind_hang (by intro a; simp [pure_eq_ok]), show u32 i = i from Nat.mod_eq_of_lt (by omega)]
    exact shape_lookup r2 (by omega) (by omega) d
  · have h1 := harmonic_log (n := n) (m := i + 1) (by omega)
    have h2 := harmonic_log (n := n) (m := n - i) (by omega)
    linarith

/-- C194. On average over all ways to insert `n` items, the next insertion, at any index `g`, makes H(g) + H(n-g) + 1 nested
    calls, which is at most 2 log2 n + 3. -/
theorem tlist_average_insert (n g : Nat) (hn : n ≤ 2^31) (hg : g ≤ n) :
    ∃ calls : List Nat → Nat,
      (∀ s ∈ orders n, ∀ (itemsize : Nat) (cs : List (Nat × List Byte × Nat)), cs.map Prod.fst = s → Lawful itemsize cs →
        ∃ t, run (tlist_new itemsize []) (inserts cs) = .ok (t, List.replicate n (.int 1)) ∧
          ∀ (x : List Byte) (a : Nat), x.length = t.itemsize → Fresh t a →
            ∀ d, tlist_insert_room d t g x (some a) = .error .hang ↔ d < calls s) ∧
      ((orders n).map fun s => (calls s : ℚ)).sum = (orders n).length * (harmonic g + harmonic (n - g) + 1) ∧
      harmonic g + harmonic (n - g) + 1 ≤ 2 * (Nat.log2 n : ℚ) + 3 := by
  refine ⟨fun s => seen (arrange s).2 g g + 1, ?_, ?_, ?_⟩
  · intro s hs itemsize cs hc hl
    obtain ⟨t, T, r1, r2⟩ := order_shape (by omega) hs hc hl
    have hlen := arrange_length hs
    have hsz := r2.size
    refine ⟨t, r1, fun x a hx hf d => ?_⟩
    rw [insert_room_hang r2.wf (by omega) (by omega) hf hx d, sc_eq T r2.strict g (by omega), r2.prios]
  · have e : (fun s => ((seen (arrange s).2 g g + 1 : Nat) : ℚ)) = fun s => (seen (arrange s).2 g g : ℚ) + 1 := by funext s; push_cast; rfl
    rw [e, sum_const 1 (orders n) (fun s => (seen (arrange s).2 g g : ℚ)), average_seen hn (Nat.le_refl g) hg, orders_length]
    ring
  · have h1 := harmonic_log (n := n) (m := g) (by omega)
    have h2 := harmonic_log (n := n) (m := n - g) (by omega)
    linarith

/-- C194. On average over all ways to insert `n` items, room for H(i) + H(n-1-i) + 2 nested calls, which is at most
    2 log2 n + 4, is enough to delete the item at `i`. -/
theorem tlist_average_delete (n i : Nat) (hn : n ≤ 2^31) (hi : i < n) :
    ∃ calls : List Nat → Nat,
      (∀ s ∈ orders n, ∀ (itemsize : Nat) (cs : List (Nat × List Byte × Nat)), cs.map Prod.fst = s → Lawful itemsize cs →
        ∃ t, run (tlist_new itemsize []) (inserts cs) = .ok (t, List.replicate n (.int 1)) ∧
          ∀ d, calls s ≤ d → ∃ t', tlist_delete_room d t i = .ok (t', 1) ∧ tlist_delete_impl t i false = .ok (t', 1)) ∧
      ((orders n).map fun s => (calls s : ℚ)).sum = (orders n).length * (harmonic i + harmonic (n - 1 - i) + 2) ∧
      harmonic i + harmonic (n - 1 - i) + 2 ≤ 2 * (Nat.log2 n : ℚ) + 4 := by
  refine ⟨fun s => seen (arrange s).2 i (i + 1) + 2, ?_, ?_, ?_⟩
  · intro s hs itemsize cs hc hl
    obtain ⟨t, T, r1, r2⟩ := order_shape (by omega) hs hc hl
    have hlen := arrange_length hs
    have hsz := r2.size
    refine ⟨t, r1, fun d hd => ?_⟩
    simp only at hd
    have hang := fun d => delete_room_hang r2.wf (by omega) (i := i) (by omega) d
    have hr := rc_le T i (by omega)
    rw [around_eq T r2.strict i (by omega), r2.prios] at hr
    obtain ⟨t', T', r, _⟩ := Tlist.delete_spec r2.wf (by omega) (idx := i) (by omega)
    have e : tlist_delete_impl t i false = tlist_delete_room (depth T.size) t i := by
      unfold tlist_delete_impl tlist_delete_room
      rw [getsize_spec r2.wf]
      rfl
    refine ⟨t', ?_, r⟩
    rw [← r, e]
    refine keep_all (f := fun d => tlist_delete_room d t i) (fun d h => delete_room_keep d t i h)
      (fun h => by have := (hang d).1 h; omega) ?_
    rw [← e, r]
    simp
  · have e : (fun s => ((seen (arrange s).2 i (i + 1) + 2 : Nat) : ℚ)) = fun s => (seen (arrange s).2 i (i + 1) : ℚ) + 2 := by
      funext s; push_cast; rfl
    rw [e, sum_const 2 (orders n) (fun s => (seen (arrange s).2 i (i + 1) : ℚ)), average_seen hn (Nat.le_succ i) hi, orders_length,
      show n - 1 - i = n - (i + 1) by omega]
    ring
  · have h1 := harmonic_log (n := n) (m := i) (by omega)
    have h2 := harmonic_log (n := n) (m := n - 1 - i) (by omega)
    linarith

/-- Every sequence of indices is met by lawful calls, whatever the size of the items. -/
example (itemsize : Nat) (s : List Nat) : ∃ cs : List (Nat × List Byte × Nat), cs.map Prod.fst = s ∧ Lawful itemsize cs :=
  ⟨_, (someCalls_ok itemsize s 1 (by omega)).1, (someCalls_ok itemsize s 1 (by omega)).2.1⟩

/-- The six ways to insert three items; for `n = 3` and the middle item the lookups make 12 = 6 * (H(2) + H(2) - 1) calls in total. -/
example : orders 3 = [[0, 0, 0], [0, 0, 1], [0, 0, 2], [0, 1, 0], [0, 1, 1], [0, 1, 2]] := by decide +kernel

example : (orders 3).map (fun s => wayLength (arrange s).2 1) = [3, 2, 1, 1, 2, 3] := by decide +kernel

/-- The ways to the items of a list that grew at its end, and what can be seen from its gaps. -/
example : (List.range 5).map (wayLength (priorities (List.replicate 5 (.append [0] (some 1))))) = [1, 4, 3, 4, 2] ∧
    (List.range 6).map (fun g => seen (priorities (List.replicate 5 (.append [0] (some 1)))) g g) = [1, 4, 4, 4, 4, 2] := by
  decide +kernel

/-- A history that meets the hypotheses. -/
example : Valid (tlist_new 1 []) (inserts [(0, [7], 100)]) := by
  intro pre op post he t' rs hr
  match pre, he with
  | [], he => cases he; cases hr; simp [OpOk, Fresh, tlist_new]
  | _ :: _, he => have := congrArg List.length he; simp [inserts] at this

end Ulz.Props

import Verif.Proofs.Treap
/-! C155: the worst case of the treap list. -/
set_option linter.unusedVariables false
namespace Ulz.Props
open Ulz.Tlist Ulz.Tlist.Spec

/-- C155. For every number `n` of items there are `n` indices, the same for every program and every run, such that inserting `n`
    items at these indices, one after the other, into a new list succeeds and gives a list of `n` items in which looking up the
    first item makes `n` nested calls: with a stack that has room for `d` of them the lookup overflows it exactly if `d < n`.
    (The first argument of `getitem` in the model is the number of nested calls there is room for.) -/
theorem tlist_worst_case (n : Nat) (h0 : 0 < n) (hn : n < 2^32) :
    ∃ indices : List Nat, indices.length = n ∧
      ∀ (itemsize : Nat) (cs : List (Nat × List Byte × Nat)), cs.map Prod.fst = indices → Lawful itemsize cs →
        ∃ t, run (tlist_new itemsize []) (inserts cs) = .ok (t, List.replicate n (.int 1)) ∧ tlist_getsize t = .ok n ∧
          ∀ d, getitem d t.heap (t.heap.ptr .root) 0 0 = .error .hang ↔ d < n := by
  refine ⟨worst n 384 [], worst_length _ _ _, ?_⟩
  intro itemsize cs he hl
  have hlen : cs.length = n := by
    have := congrArg List.length he
    rw [worst_length] at this
    simpa using this
  obtain ⟨t, T, r1, r2, r3, r4⟩ := chain_run cs (tlist_new itemsize []) .nil [] (new_wf itemsize []) trivial (List.Perm.refl _)
    (by simp [Tr.size, hlen]; exact hn) (by rw [hlen]; exact he) hl (by simp [Tr.addrs]) rfl
  rw [hlen] at r1
  simp only [Tr.size, Nat.zero_add, hlen] at r4
  refine ⟨t, r1, by rw [getsize_spec r2, r4], ?_⟩
  intro d
  rw [r2.root, chain_getitem T t.heap d r2.has r3 (by omega) (by omega), r4]

/-- The first eight of these indices; three insertions at the first three of them are lawful. -/
example : worst 8 384 [] = [0, 0, 1, 1, 3, 2, 1, 5] := by decide +kernel

example : Lawful 1 [(0, [7], 100), (0, [8], 200), (1, [9], 300)] := by simp [Lawful, hdr]

end Ulz.Props

import Verif.Proofs.Tlimit
/-! C177: the treap list at the limit of its 32-bit counters. -/
namespace Ulz.Props
open Ulz.Tlist Ulz.Tlist.Spec Ulz.Tlimit Ulz.Tlimit.Spec

/-- C177: a list of 2^32 - 1 items accepts another one, at every index, and reports success; the item is stored where it belongs. But then
    the list answers that its size is 0, so that every deletion is refused, and freeing the items leaves all 2^32 of them allocated. -/
theorem tlist_insert_wraps (t : TL) (T : Tr) (h : WF t T) (hs : T.items.length = 2^32 - 1) (idx : Nat) (hi : idx ≤ T.items.length) (n : Nat)
    (hf : Fresh t n) (x : List Byte) (hx : x.length = t.itemsize) :
    ∃ t' T', tlist_insert t idx x (some n) = .ok (t', 1) ∧ Holds t' T' ∧ T'.items = T.items.take idx ++ x :: T.items.drop idx ∧
      tlist_getsize t' = .ok 0 ∧ (∀ i deep, tlist_delete_impl t' i deep = .ok (t', 0)) ∧
      (∀ deep, tlist_free_items t' deep = .ok t') ∧
      T'.addrs.length = 2^32 ∧ T'.addrs.Nodup ∧ ∀ a ∈ T'.addrs, t'.heap.live a = true := by
  rw [items_length] at hs hi
  obtain ⟨t', T', e1, e2, e3⟩ := insert_limit h (by omega) hi hf hx
  have hsz : T'.size = 2^32 := by
    rw [← items_length, e3, List.length_append, List.length_cons, List.length_take, List.length_drop, items_length]
    omega
  have hg : tlist_getsize t' = .ok 0 := by rw [getsize_holds e2, hsz, Nat.mod_self]
  refine ⟨t', T', e1, e2, e3, hg, fun i deep => ?_, fun deep => ?_, by rw [addrs_length]; exact hsz, e2.nodup, fun a ha => (e2.live a).2 ha⟩
  · unfold tlist_delete_impl
    rw [hg, ok_bindE, if_pos (Nat.zero_le i)]
    rfl
  · unfold tlist_free_items freeItemsLoop
    rw [hg, ok_bindE, ok_bindE, if_neg (by simp)]
    rfl

/-- C177: lists of every size up to that limit exist, built by insertions. -/
theorem tlist_every_size (k : Nat) (hk : k < 2^32) : ∃ t T, WF t T ∧ T.items.length = k ∧ tlist_getsize t = .ok k ∧ ∃ n, Fresh t n := by
  obtain ⟨t, T, h1, h2, h3, h4, h5⟩ := exists_list k hk
  refine ⟨t, T, h1, by rw [items_length, h2], by rw [getsize_spec h1, h2], 25 * k + 1, by omega, fun b hb => Or.inr ?_, by rw [h4]; simp⟩
  have := h5 b hb
  rw [h3]
  simp only [hdr]
  omega

/-- So the hypotheses of `tlist_insert_wraps` are met. -/
example : ∃ t T, WF t T ∧ T.items.length = 2^32 - 1 ∧ ∃ n, Fresh t n :=
  let ⟨t, T, h1, h2, _, h3⟩ := tlist_every_size (2^32 - 1) (by decide)
  ⟨t, T, h1, h2, h3⟩

end Ulz.Props

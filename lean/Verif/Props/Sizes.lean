import Verif.Proofs.Sizes
import Verif.Proofs.Tglist
/-! C206: results and blocks whose size does not fit into a `size_t`. -/
namespace Ulz.Props
open Ulz.Stringptr Ulz.Stringptr.Spec
open Ulz.Sblist (SB)

/-- C206: if memory is granted, joining strings with stringptr_concat is free of errors exactly if the result, its header and its terminator take
    less than 2^64 bytes. The sum of the sizes is not checked. -/
theorem stringptr_concat_iff (f : Nat → Byte) (p : SP) (l : List SP) (s : List Byte) (ss : List (List Byte)) (hp : Holds p s) (hl : HoldsAll l ss) :
    (∃ r, concat (some f) p l = .ok r) ↔ (s ++ ss.flatten).length + 17 < 2 ^ 64 :=
  ⟨fun ⟨_, h⟩ => Sizes.concat_fits hp hl h, fun h => ⟨_, concat_spec hp hl h⟩⟩

/-- C206: the same for stringptrlist_tostring. -/
theorem stringptrlist_tostring_iff (f : Nat → Byte) (l : List SP) (ss : List (List Byte)) (hl : HoldsAll l ss) :
    (∃ r, tostring (some f) l = .ok r) ↔ (ss.map (· ++ [ch '\n'])).flatten.length + 17 < 2 ^ 64 :=
  ⟨fun ⟨_, h⟩ => Sizes.tostring_fits hl h, fun h => ⟨_, tostring_spec hl h⟩⟩

/-- C206: the same for stringptrlist_tostring_dos. -/
theorem stringptrlist_tostring_dos_iff (f : Nat → Byte) (l : List SP) (ss : List (List Byte)) (hl : HoldsAll l ss) :
    (∃ r, tostring_dos (some f) l = .ok r) ↔ (ss.map (· ++ [ch '\r', ch '\n'])).flatten.length + 17 < 2 ^ 64 :=
  ⟨fun ⟨_, h⟩ => Sizes.tostring_fits hl h, fun h => ⟨_, tostring_spec hl h⟩⟩

/-- C206: the same for stringptr_replace: a text that grows beyond 2^64 bytes by replacing overruns the result. -/
theorem stringptr_replace_iff (f : Nat → Byte) (s junk d dj w wj : List Byte) (x : Byte) (hd : d ≠ []) (hs : s.length + 1 < 2 ^ 64) (fuel : Nat)
    (hf : s.length + 2 ≤ fuel) (pcs : List (List Byte)) (hp : Split d s pcs) :
    (∃ r, replace (some f) ⟨s ++ x :: junk, s.length⟩ ⟨d ++ dj, d.length⟩ ⟨w ++ wj, w.length⟩ fuel = .ok r) ↔ (join w pcs).length + 17 < 2 ^ 64 := by
  constructor
  · rintro ⟨r, h⟩
    exact Sizes.replace_fits hd hs hf hp h
  · intro h
    obtain ⟨pcs', h1, h2⟩ := replace_spec (f := f) (dj := dj) (wj := wj) (junk := junk) (x := x) hd hs hf
      (fun q hq => by rw [← split_unique hp hq]; exact h)
    exact ⟨_, h2⟩

/-- C206: filling the first block of a new sblist, with memory granted, is free of errors exactly as long as the items fit into the product of block size
    and item size taken modulo 2^64; the list itself believes that there is room for `bi` items. -/
theorem sblist_first_block_iff (f : Nat → Byte) (isz bi : Nat) (hi : 0 < isz) (hb : 0 < bi) (_hb' : bi < 2 ^ 64) (xs : List (List Byte))
    (hx : ∀ x ∈ xs, x.length = isz) (hne : xs ≠ []) (hl : xs.length ≤ bi) :
    (∃ r, (Sblist.init isz bi >>= fun l => Sblist.run l (xs.map fun x => .add x (some f))) = .ok r) ↔ xs.length * isz ≤ bi * isz % 2 ^ 64 := by
  obtain ⟨x, xs, rfl⟩ := List.exists_cons_of_ne_nil hne
  have ei : Sblist.init isz bi = .ok ⟨isz, bi, 0, 0, []⟩ := by
    unfold Sblist.init
    rw [if_pos (by omega)]
    rfl
  have hM : ((List.range (szt (bi * isz) - 0)).map f).length = szt (bi * isz) := by simp
  have ea : Sblist.add (some f) ⟨isz, bi, 0, 0, []⟩ x = Sblist.add (some f) ⟨isz, bi, 0, bi, (List.range (szt (bi * isz) - 0)).map f⟩ x := by
    unfold Sblist.add Sblist.grow_if_needed
    rw [if_pos rfl, if_neg (by simp only; omega)]
    simp only [Nat.zero_add, realloc, Option.map_some, List.take_nil, List.nil_append, List.length_nil]
  rw [ei, ok_bind]
  have := Sizes.addAll_iff f isz (x :: xs) hx ⟨isz, bi, 0, bi, (List.range (szt (bi * isz) - 0)).map f⟩ rfl (by simp) (by rw [hM]; exact Sizes.szt_lt _)
    (by simpa using hl)
  simp only [hM, Nat.zero_add] at this
  rw [show bi * isz % 2 ^ 64 = szt (bi * isz) from rfl, ← this, List.map_cons, Sblist.run, Sblist.run, Sblist.step, Sblist.step, ea]

/-- C206: adding to a list whose buffer is full, with memory granted, is free of errors exactly if the new item fits into the new size taken modulo 2^64. -/
theorem sblist_full_add_iff (f : Nat → Byte) (l : SB) (xs : List (List Byte)) (hr : Sblist.Spec.Rep l xs) (hc : l.count = l.capa)
    (hb : l.items.length < 2 ^ 64) (_hb' : l.capa + l.blockitems < 2 ^ 64) (hbi : 0 < l.blockitems) (x : List Byte) (hx : x.length = l.itemsize) :
    (∃ r, Sblist.add (some f) l x = .ok r) ↔ (xs.length + 1) * l.itemsize ≤ (l.capa + l.blockitems) * l.itemsize % 2 ^ 64 := by
  obtain ⟨slack, b1, b2⟩ := hr.buf
  rw [hc, Nat.sub_self, Nat.zero_mul] at b2
  have hlen : l.items.length = l.count * l.itemsize := by
    rw [b1, List.length_append, b2, flatten_length hr.item, hr.count, Nat.add_zero]
  have hM : ∀ (n : Nat), (l.items.take n ++ (List.range (n - l.items.length)).map f).length = n := by
    intro n
    simp
    omega
  unfold Sblist.add Sblist.grow_if_needed
  rw [if_pos hc]
  simp only [realloc, Option.map_some, Nat.add_sub_cancel]
  rw [if_neg (by decide)]
  unfold Sblist.set
  simp only
  rw [if_neg (by omega), show rdN x 0 l.itemsize = .ok x from by unfold rdN; rw [if_pos (by omega)]; simp [← hx]]
  rw [szt_of_lt (n := l.count * l.itemsize) (by omega), ok_bind]
  unfold wrN
  rw [hM, hx, ← hr.count, Nat.add_mul l.count 1, Nat.one_mul]
  show _ ↔ _ ≤ szt _
  by_cases h : l.count * l.itemsize + l.itemsize ≤ szt ((l.capa + l.blockitems) * l.itemsize)
  · rw [if_pos h]
    exact ⟨fun _ => h, fun _ => ⟨_, rfl⟩⟩
  · rw [if_neg h]
    exact ⟨fun ⟨_, e⟩ => (by cases e), fun h' => absurd h' h⟩

/-- C206: a tglist, which doubles its room, has no such limit: as long as its buffer has at most 2^62 bytes and an item at most 2^60, an addition for which
    memory is granted works. -/
theorem tglist_growth_fits (f : Nat → Byte) (isz : Nat) (l : Tglist.TG) (xs : List (List Byte)) (hr : Tglist.Spec.Rep isz l xs)
    (hb : l.items.length ≤ 2 ^ 62) (hi : isz ≤ 2 ^ 60) (x : List Byte) (hx : x.length = isz) :
    ∃ l', Tglist.add isz (some f) l x = .ok (l', 1) ∧ Tglist.Spec.Rep isz l' (xs ++ [x]) := by
  obtain ⟨slack, b1, b2⟩ := hr.buf
  have hlen : l.count * isz ≤ l.items.length := by
    rw [b1, List.length_append, flatten_length hr.item, hr.count]
    omega
  have hm : (2 * l.count + 4) * isz = 2 * (l.count * isz) + 4 * isz := by rw [Nat.add_mul, Nat.mul_assoc]
  rcases Tglist.add_spec hr (by omega) (some f) x hx with ⟨l', h1, h2, _⟩ | ⟨h, _⟩
  · exact ⟨l', h1, h2⟩
  · cases h

/-! #### Examples -/

-- 2^32 entries that all are the same text of 2^32 bytes
example (b : Byte) : ¬ ∃ r, tostring (some fun _ => 0) (List.replicate (2 ^ 32) ⟨List.replicate (2 ^ 32) b, 2 ^ 32⟩) = .ok r := by
  have h : ∀ n, HoldsAll (List.replicate n ⟨List.replicate (2 ^ 32) b, 2 ^ 32⟩) (List.replicate n (List.replicate (2 ^ 32) b)) := by
    intro n
    induction n with
    | zero => exact .nil
    | succ n ih => exact .cons ⟨by rw [List.length_replicate], List.prefix_refl _⟩ ih
  rw [stringptrlist_tostring_iff _ _ _ (h _)]
  have : ((List.replicate (2 ^ 32) (List.replicate (2 ^ 32) b)).map (· ++ [ch '\n'])).flatten.length = 2 ^ 32 * (2 ^ 32 + 1) := by
    rw [List.map_replicate, flatten_length (k := 2 ^ 32 + 1), List.length_replicate]
    intro y hy
    rw [List.eq_of_mem_replicate hy, List.length_append, List.length_replicate, List.length_singleton]
  rw [this]
  decide

-- a list of items of 16 bytes with 2^60 + 1 items per block: one item fits, two do not
example (x y : List Byte) (hx : x.length = 16) (hy : y.length = 16) :
    (∃ r, (Sblist.init 16 (2 ^ 60 + 1) >>= fun l => Sblist.run l ([x].map fun x => .add x (some fun _ => 0))) = .ok r) ∧
    ¬ ∃ r, (Sblist.init 16 (2 ^ 60 + 1) >>= fun l => Sblist.run l ([x, y].map fun x => .add x (some fun _ => 0))) = .ok r := by
  rw [sblist_first_block_iff _ 16 (2 ^ 60 + 1) (by decide) (by decide) (by decide) [x] (by simpa using hx) (by simp) (by simp),
    sblist_first_block_iff _ 16 (2 ^ 60 + 1) (by decide) (by decide) (by decide) [x, y] (by simpa using ⟨hx, hy⟩) (by simp) (by simp)]
  simp only [List.length_cons, List.length_nil]
  decide

end Ulz.Props

import Verif.Proofs.Sortset
/-! C224: a sorted list as a table of keys. -/
namespace Ulz.Props
open Ulz.Sblist Ulz.Sblist.Spec Ulz.Sortset Ulz.Sortset.Spec

/-- C224: a list to which items are only added after a search and in order is a table: every history gives what a table gives, and the
    list holds the stored items, each once, in strictly ascending order. -/
theorem sortset_table (cmp : List Byte → List Byte → Int) (hc : TotalPreorder cmp) (isz bi : Nat) (hi : 0 < isz) (hb : 0 < bi) (ops : List Sortset.Op)
    (hsz : (ops.length + bi) * isz < 2 ^ 64) (hok : ∀ op ∈ ops, Sortset.Spec.OpOk isz op) (l : SB) (hl : init isz bi = .ok l) :
    ∃ l' rs xs f, Sortset.run cmp l ops = .ok (l', rs) ∧ Sortset.Spec.Steps cmp (fun _ => none) ops f rs ∧
      Rep l' xs ∧ xs.Pairwise (fun a b => cmp a b < 0) ∧ ∀ y x, f y = some x ↔ x ∈ xs ∧ cmp y x = 0 := by
  obtain ⟨l0, h1, h2, h3, h4, h5⟩ := init_rep hi hb
  rw [hl] at h1
  cases h1
  have hinv : Inv cmp isz bi l [] (fun _ => none) := ⟨h2, h4, h3, List.Pairwise.nil, fun y x => by simp⟩
  obtain ⟨l', rs, xs, g, r1, r2, r3⟩ := run_inv hc hb ops hinv (by simpa using hsz) hok
  exact ⟨l', rs, xs, g, r1, r2, r3.rep, r3.asc, r3.tab⟩

/-- C224: adding at the end instead breaks it: with any comparison function, of two items in the wrong order the first is not found. -/
theorem sortset_unsorted (cmp : List Byte → List Byte → Int) (l : SB) (x y : List Byte) (hr : Rep l [y, x]) (hsz : l.count * l.itemsize < 2 ^ 64) (h : 0 < cmp y x) :
    findKey l y cmp = .ok none := by
  have hcnt : l.count = 2 := hr.count
  unfold findKey bsearch
  rw [hcnt, bsearchLoop_eq, if_pos (by decide)]
  have hd := deref_get hr hsz (i := 0 + 2 / 2) (by simp)
  rw [hd, ok_bind]
  have hx : ([y, x] : List (List Byte))[0 + 2 / 2]'(by simp) = x := rfl
  rw [hx, if_neg (by omega), if_pos h, bsearchLoop_eq, if_neg (by decide)]
  rfl

/-- C224: so such a program can store an item a second time. -/
theorem sortset_twice (cmp : List Byte → List Byte → Int) (hc : TotalPreorder cmp) (l : SB) (x y : List Byte) (hr : Rep l [y, x]) (hbi : 0 < l.blockitems)
    (hsz : (l.count + l.blockitems) * l.itemsize < 2 ^ 64) (h : 0 < cmp y x) (g : Nat → Byte) :
    ∃ l' xs, addKey (some g) l y cmp = .ok (l', 1) ∧ Rep l' xs ∧ xs.count y = 2 := by
  have hf := sortset_unsorted cmp l x y hr (mul_lt_of hsz (by omega)) h
  have hs : bsearch l y cmp = .ok none := by
    unfold findKey at hf
    cases hb : bsearch l y cmp with
    | error e => rw [hb] at hf; cases hf
    | ok r =>
      cases r with
      | none => rfl
      | some i =>
        rw [hb, ok_bind] at hf
        dsimp only at hf
        cases hd : deref l (Sblist.get l i) with
        | error e => rw [hd] at hf; cases hf
        | ok z => rw [hd] at hf; cases hf
  rcases insert_sorted_spec hr hbi hsz (some g) y (hr.item y (by simp)) cmp with ⟨l', p, h1, h2, h3, _⟩ | ⟨h1, _⟩
  · refine ⟨l', _, by unfold addKey; rw [hs, ok_bind]; dsimp only; rw [h1]; rfl, h3, ?_⟩
    have hperm : (([y, x] : List (List Byte)).take p ++ y :: ([y, x] : List (List Byte)).drop p).Perm (y :: [y, x]) := by
      have := List.perm_middle (a := y) (l₁ := ([y, x] : List (List Byte)).take p) (l₂ := ([y, x] : List (List Byte)).drop p)
      rwa [List.take_append_drop] at this
    rw [hperm.count_eq]
    have hne : x ≠ y := by
      rintro rfl
      rw [hc.refl] at h
      omega
    simp [hne]
  · cases h1

/-! Items of one byte: adding twice, removing, and a list in the wrong order. -/
example : ∃ l' rs xs f, Sortset.run firstByteCmp ⟨1, 4, 0, 0, []⟩ [.add [7] (some fun _ => 0), .add [7] none, .add [3] none, .remove [7], .find [3], .find [7]] = .ok (l', rs) ∧
    Sortset.Spec.Steps firstByteCmp (fun _ => none) [.add [7] (some fun _ => 0), .add [7] none, .add [3] none, .remove [7], .find [3], .find [7]] f rs ∧
    Rep l' xs ∧ xs.Pairwise (fun a b => firstByteCmp a b < 0) ∧ ∀ y x, f y = some x ↔ x ∈ xs ∧ firstByteCmp y x = 0 :=
  sortset_table firstByteCmp firstByteCmp_preorder 1 4 (by decide) (by decide) _ (by decide) (by simp [Sortset.Spec.OpOk]) _ rfl
example : (Sortset.run firstByteCmp ⟨1, 4, 0, 0, []⟩ [.add [7] (some fun _ => 0), .add [7] none, .add [3] none, .remove [7], .find [3], .find [7]]).map Prod.snd =
    .ok [.int 1, .int 0, .int 1, .int 1, .item (some [3]), .item none] := by decide +kernel
example : Rep ⟨1, 4, 2, 4, [7, 3, 0, 0]⟩ [[7], [3]] ∧ 0 < firstByteCmp [7] [3] :=
  ⟨⟨by decide, rfl, by decide, by decide, [0, 0], rfl, rfl⟩, by decide⟩

end Ulz.Props

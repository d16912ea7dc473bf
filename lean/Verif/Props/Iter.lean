import Verif.Proofs.Iter
/-! C178-C179: loops over lists. -/
namespace Ulz.Props
open Ulz.Iter Ulz.Iter.Spec
open Ulz.Sblist (SB)
open Ulz.Sblist.Spec (Rep)

/-- C178. A loop with `sblist_iter` (or `sblist_iter_counter`, `sblist_iter_counter2`) that does not change the list and leaves
    with `break` at the first item with `q` handles exactly the items before it, in order, with `PTR` at each. Afterwards
    the variables say where it stopped: ITER is the number of items handled, and `PTR` is the item found; if there is none it is NULL
    and ITER the size of the list. -/
theorem sblist_iter_visits {σ : Type} (l : SB) (xs : List (List Byte)) (h : Rep l xs) (hb : l.count * l.itemsize < 2^64)
    (q : List Byte → Bool) (f : σ → List Byte → σ) (s : σ) (fuel : Nat) (hf : xs.length < fuel) :
    ∃ o, iter (search q f) fuel l 0 s = .ok o ∧ o.l = l ∧
      o.s = (xs.takeWhile (fun x => !q x)).foldl f s ∧ o.i = (xs.takeWhile (fun x => !q x)).length ∧
      (o.ptr = none ↔ ∀ x ∈ xs, q x = false) ∧
      (o.ptr ≠ none → ∃ hi : o.i < xs.length, Sblist.deref l o.ptr = .ok xs[o.i] ∧ q xs[o.i] = true) := by
  have := search_spec q f xs h hb xs [] s fuel rfl hf
  simp only [List.nil_append, List.length_nil] at this
  refine ⟨_, this, rfl, rfl, rfl, ?_, ?_⟩
  · dsimp only
    have hc := h.count
    unfold Sblist.get
    constructor
    · intro hn x hx
      split at hn
      · cases hn
      · rename_i hge
        have hle : xs.length ≤ (xs.takeWhile (fun x => !q x)).length := by omega
        have hpre := List.takeWhile_prefix (l := xs) (fun x => !q x)
        have e : xs.takeWhile (fun x => !q x) = xs := hpre.eq_of_length_le hle
        rw [← e] at hx
        have := takeWhile_mem hx
        simpa using this
    · intro hall
      have e : xs.takeWhile (fun x => !q x) = xs := takeWhile_all (fun x hx => by simp [hall x hx])
      rw [e, if_neg (by omega)]
  · dsimp only
    intro hne
    have hc := h.count
    have hi : (xs.takeWhile (fun x => !q x)).length < xs.length := by
      apply Classical.byContradiction
      intro hge
      exact hne (get_none (by omega))
    refine ⟨hi, Sblist.deref_get h hb hi, ?_⟩
    have hd := List.takeWhile_append_dropWhile (p := fun x => !q x) (l := xs)
    have hdl : 0 < (xs.dropWhile (fun x => !q x)).length := by
      have := congrArg List.length hd
      rw [List.length_append] at this
      omega
    have hh := List.head_dropWhile_not (l := xs) (fun x => !q x) (by intro hnil; rw [hnil] at hdl; simp at hdl)
    have : xs[(xs.takeWhile (fun x => !q x)).length] = (xs.dropWhile (fun x => !q x)).head (by intro hnil; rw [hnil] at hdl; simp at hdl) := by
      rw [List.head_eq_getElem]
      simp only [List.getElem_of_eq hd.symm hi]
      rw [List.getElem_append_right (Nat.le_refl _)]
      simp
    rw [this]
    simpa using hh

/-- Three two-byte items in a list with room for four. -/
def iterList : SB := ⟨2, 4, 3, 4, [1, 0, 2, 0, 3, 0, 9, 9]⟩

theorem iterList_rep : Rep iterList [[1, 0], [2, 0], [3, 0]] :=
  ⟨by decide, by decide, by decide, by decide, [9, 9], by decide, by decide⟩

example : Rep iterList [[1, 0], [2, 0], [3, 0]] ∧ iterList.count * iterList.itemsize < 2^64 := ⟨iterList_rep, by decide⟩

example : ∃ o, iter (search (fun x => x == [2, 0]) (fun s x => s ++ [x])) 4 iterList 0 [] = .ok o ∧ o.s = [[1, 0]] ∧ o.i = 1 ∧ o.ptr = some 2 :=
  ⟨_, rfl, rfl, rfl, rfl⟩

/-- C178. A loop that deletes the items with `p` and then decreases the loop variable handles every item of the list once, in
    order, and leaves exactly the others, in order. `PTR` is NULL afterwards. This holds with the signed loop variable of
    `sblist_iter_counter2s` and also with an unsigned one. -/
theorem sblist_iter_delete {σ : Type} (l : SB) (xs : List (List Byte)) (h : Rep l xs) (hb : l.count * l.itemsize < 2^64)
    (h63 : l.count < 2^63) (p : List Byte → Bool) (f : σ → List Byte → σ) (s : σ) (fuel : Nat) (hf : xs.length < fuel) :
    (∃ l', iters (removeS p f) fuel l 0 s = .ok ⟨l', l'.count, none, xs.foldl f s⟩ ∧ Rep l' (xs.filter (fun x => !p x))) ∧
    (∃ l', iter (removeU p f) fuel l 0 s = .ok ⟨l', l'.count, none, xs.foldl f s⟩ ∧ Rep l' (xs.filter (fun x => !p x))) := by
  constructor
  · obtain ⟨l', h1, h2, _⟩ := removeS_spec p f xs [] l s fuel (by simpa using h) hb h63 hf
    exact ⟨l', h1, by simpa using h2⟩
  · obtain ⟨l', h1, h2, _⟩ := removeU_spec p f xs [] l s fuel (by simpa using h) hb hf
    exact ⟨l', h1, by simpa using h2⟩

example : ∃ o, iters (removeS (fun x => x != [2, 0]) (fun s x => s ++ [x])) 4 iterList 0 [] = .ok o ∧
    o.s = [[1, 0], [2, 0], [3, 0]] ∧ o.l.count = 1 ∧ o.l.items.take 2 = [2, 0] := ⟨_, rfl, rfl, rfl, rfl⟩

/-- C178. Without decreasing the loop variable the item after a deleted one is neither handled nor deleted. Items with `p` are left
    in the list exactly if two neighbours have `p`; otherwise the list holds exactly the items without `p`. -/
theorem sblist_iter_delete_skips {σ : Type} (l : SB) (xs : List (List Byte)) (h : Rep l xs) (hb : l.count * l.itemsize < 2^64)
    (p : List Byte → Bool) (f : σ → List Byte → σ) (s : σ) (fuel : Nat) (hf : xs.length < fuel) :
    ∃ l' i ys, iter (removeN p f) fuel l 0 s = .ok ⟨l', i, none, (visited p xs).foldl f s⟩ ∧ Rep l' ys ∧ ys = leftover p xs ∧
      ((∃ x ∈ ys, p x = true) ↔ Adjacent p xs) ∧ (¬ Adjacent p xs → ys = xs.filter (fun x => !p x)) := by
  obtain ⟨l', i, h1, h2, _⟩ := removeN_spec p f fuel xs [] l s (by simpa using h) hb hf
  exact ⟨l', i, _, h1, by simpa using h2, rfl, leftover_iff p _ xs (Nat.le_refl _), leftover_filter p _ xs (Nat.le_refl _)⟩

example : Adjacent (fun x => x != [3, 0]) [[1, 0], [2, 0], [3, 0]] := ⟨0, by decide, by decide, by decide⟩

example : ∃ o, iter (removeN (fun x => x != [3, 0]) (fun s x => s ++ [x])) 4 iterList 0 [] = .ok o ∧
    o.s = [[1, 0], [3, 0]] ∧ o.l.count = 2 ∧ o.l.items.take 4 = [2, 0, 3, 0] := ⟨_, rfl, rfl, rfl, rfl⟩

/-- C178. The same for `tglist_foreach` with an unsigned loop variable that is decreased after a deletion. -/
theorem tglist_foreach_delete {σ : Type} (isz : Nat) (l : Tglist.TG) (xs : List (List Byte)) (h : Tglist.Spec.Rep isz l xs)
    (hb : l.count * isz < 2^64) (p : List Byte → Bool) (f : σ → List Byte → σ) (s : σ) (fuel : Nat) (hf : xs.length < fuel) :
    ∃ l', foreach (removeT isz p f) fuel l 0 s = .ok (l', l'.count, xs.foldl f s) ∧ Tglist.Spec.Rep isz l' (xs.filter (fun x => !p x)) := by
  obtain ⟨l', h1, h2⟩ := removeT_spec p f xs [] l s fuel (by simpa using h) hb hf
  exact ⟨l', h1, by simpa using h2⟩

example : Tglist.Spec.Rep 2 ⟨3, 4, [1, 0, 2, 0, 3, 0, 9, 9]⟩ [[1, 0], [2, 0], [3, 0]] :=
  ⟨by decide, by decide, by decide, by decide, [9, 9], by decide, by decide⟩

/-- C179. A list can be its own work list: a loop that appends the items `g` makes of each item goes through the appended ones too. If
    at some point a generation of items is empty, the loop ends after handling all generations, each after the one before
    and in order, and the list holds them in that order. (While memory is available; the body must not use `PTR` after adding.) -/
theorem sblist_iter_worklist {σ : Type} (l : SB) (xs : List (List Byte)) (h : Rep l xs) (hbi : 0 < l.blockitems) (mem : Nat → Alloc)
    (hmem : ∀ n, (mem n).isSome) (g : List Byte → List (List Byte)) (f : σ → List Byte → σ) (s : σ) (n : Nat)
    (hend : level g n xs = []) (hb : ((generations g n xs).length + l.blockitems) * l.itemsize < 2^64)
    (hg : ∀ x ∈ generations g n xs, ∀ y ∈ g x, y.length = l.itemsize) (fuel : Nat) (hf : (generations g n xs).length < fuel) :
    ∃ l', iter (extend mem g f) fuel l 0 s = .ok ⟨l', l'.count, none, (generations g n xs).foldl f s⟩ ∧ Rep l' (generations g n xs) := by
  obtain ⟨l', h1, h2, _⟩ := extend_spec mem hmem g f (Q.levels n xs hend) fuel [] l s (by simpa using h) hbi (by simpa using hb) hg hf
  exact ⟨l', h1, by simpa using h2⟩

/-- The children of a number: half of it, unless it is below 2. -/
def iterHalf (x : List Byte) : List (List Byte) := if (x.headD 0).toNat < 2 then [] else [[x.headD 0 >>> 1, 0]]

example : level iterHalf 2 [[1, 0], [2, 0], [3, 0]] = [] ∧
    generations iterHalf 2 [[1, 0], [2, 0], [3, 0]] = [[1, 0], [2, 0], [3, 0], [1, 0], [1, 0]] := by decide

end Ulz.Props

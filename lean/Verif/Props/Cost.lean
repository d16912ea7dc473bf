import Verif.Proofs.Cost
import Verif.Props.Sblist
import Verif.Props.Tglist
/-! C191: how many comparisons searching and sorted insertion make, whatever the comparison function does, and how much memory growing lists
    ask for. -/
namespace Ulz.Props
open Ulz.Cost Ulz.Cost.Spec
open Ulz.Sblist (SB)
open Ulz.Tglist (TG)

variable {σ : Type}

/-- C191. `sblist_insert_sorted(_r)` with ANY comparison function: it may keep a state (the `ctx`, or globals) and change its mind between
    calls. The call ends, compares only with items of the list, at most `⌊log₂ n⌋ + 1` times for `n > 0` items (never for none), and inserts the
    item somewhere, the others keeping their order; only a refused allocation makes it fail, and then nothing changes. -/
theorem sblist_insert_sorted_any (a : Alloc) (l : SB) (xs : List (List Byte)) (h : Sblist.Spec.Rep l xs) (hbi : 0 < l.blockitems)
    (hb : (l.count + l.blockitems) * l.itemsize < 2^64) (o : List Byte) (ho : o.length = l.itemsize)
    (compar : σ → List Byte → List Byte → Int × σ) (s : σ) :
    ∃ l' r s' log, sblist_insert_sorted_r a l o compar s = .ok (l', r, s', log) ∧
      log.length ≤ (if xs = [] then 0 else Nat.log2 xs.length + 1) ∧ (∀ x ∈ log, x ∈ xs) ∧
      ((∃ p, r = some p ∧ p ≤ xs.length ∧ Sblist.Spec.Rep l' (xs.take p ++ o :: xs.drop p)) ∨ (r = none ∧ a = none ∧ l' = l)) := by
  obtain ⟨p, s', log, e, h1, h2, h3, _⟩ := sortedIndex_any (fun i => Sblist.deref l (Sblist.get l i)) xs
    (fun i hi => Sblist.deref_get h (Sblist.mul_lt_of hb (by omega)) hi) o compar s
  unfold sblist_insert_sorted_r
  rw [h.count, e, ok_bindE]
  rcases Sblist.insert_spec h hbi hb a o ho p h1 with ⟨l', e2, h4, _⟩ | ⟨ha, e2⟩
  · simp only
    rw [e2, ok_bindE]
    exact ⟨l', some p, s', log, rfl, h2, h3, .inl ⟨p, rfl, h1, h4⟩⟩
  · simp only
    rw [e2, ok_bindE]
    exact ⟨l, none, s', log, rfl, h2, h3, .inr ⟨rfl, ha, rfl⟩⟩

/-- A comparison that counts its calls and answers `<`, `>`, `=` in turn: four items, three comparisons at most. -/
example : sblist_insert_sorted_r (some fun _ => 0) ⟨1, 4, 4, 4, [5, 5, 5, 5]⟩ [7]
      (fun (s : Nat) _ _ => (if s % 3 = 0 then 1 else if s % 3 = 1 then -1 else 0, s + 1)) 0 =
    .ok (⟨1, 4, 5, 8, [5, 7, 5, 5, 5, 0, 0, 0]⟩, some 1, 3, [[5], [5], [5]]) := by decide +kernel

/-- C191. The bound is met: a new largest item takes exactly `⌊log₂ n⌋ + 1` comparisons and goes to the end. -/
theorem sblist_insert_sorted_max (a : Alloc) (l : SB) (xs : List (List Byte)) (h : Sblist.Spec.Rep l xs) (hbi : 0 < l.blockitems)
    (hb : (l.count + l.blockitems) * l.itemsize < 2^64) (o : List Byte) (ho : o.length = l.itemsize)
    (compar : σ → List Byte → List Byte → Int × σ) (s : σ) (hgt : ∀ s, ∀ x ∈ xs, (compar s o x).1 > 0) :
    ∃ l' r s' log, sblist_insert_sorted_r a l o compar s = .ok (l', r, s', log) ∧
      log.length = (if xs = [] then 0 else Nat.log2 xs.length + 1) ∧
      ((r = some xs.length ∧ Sblist.Spec.Rep l' (xs ++ [o])) ∨ (r = none ∧ a = none ∧ l' = l)) := by
  obtain ⟨p, s', log, e, h1, _, _, h2⟩ := sortedIndex_any (fun i => Sblist.deref l (Sblist.get l i)) xs
    (fun i hi => Sblist.deref_get h (Sblist.mul_lt_of hb (by omega)) hi) o compar s
  have ⟨h6, hp⟩ := h2 hgt
  clear h2
  subst hp
  unfold sblist_insert_sorted_r
  rw [h.count, e, ok_bindE]
  rcases Sblist.insert_spec h hbi hb a o ho xs.length h1 with ⟨l', e2, h4, _⟩ | ⟨ha, e2⟩
  · simp only
    rw [e2, ok_bindE]
    rw [List.take_length, List.drop_length] at h4
    exact ⟨l', _, s', log, rfl, h6, .inl ⟨rfl, h4⟩⟩
  · simp only
    rw [e2, ok_bindE]
    exact ⟨l, none, s', log, rfl, h6, .inr ⟨rfl, ha, rfl⟩⟩

example : sblist_insert_sorted_r (some fun _ => 0) ⟨1, 4, 4, 8, [1, 2, 3, 4, 0, 0, 0, 0]⟩ [7]
      (fun (s : Nat) x y => (firstByteCmp x y, s + 1)) 0 =
    .ok (⟨1, 4, 5, 8, [1, 2, 3, 4, 7, 0, 0, 0]⟩, some 4, 3, [[2], [3], [4]]) ∧ Nat.log2 4 + 1 = 3 := by decide +kernel

/-- With a comparison that has no state this is `sblist_insert_sorted` as modelled for the other claims. -/
theorem sblist_insert_sorted_pure (a : Alloc) (l : SB) (o : List Byte) (cmp : List Byte → List Byte → Int) (s : σ) :
    (sblist_insert_sorted_r a l o (fun s x y => (cmp x y, s)) s).map (fun r => (r.1, r.2.1)) = Sblist.insert_sorted a l o cmp := by
  unfold sblist_insert_sorted_r Sblist.insert_sorted sortedIndex Sblist.sortedIndex
  by_cases h : l.count = 0
  · rw [if_pos h, if_pos h, pure_eq_ok, pure_eq_ok, ok_bindE, ok_bindE]
    simp only
    cases Sblist.insert a l o 0 with
    | error e => rfl
    | ok q =>
      obtain ⟨l1, ok⟩ := q
      rw [ok_bindE, ok_bindE]
      by_cases hk : ok = 0
      · subst hk; rfl
      · simp only [if_pos hk]; rfl
  · rw [if_neg h, if_neg h]
    have := sortedPos_pure (σ := σ) _ o cmp l rfl (l.count + 1) 0 (l.count - 1) s
    cases e1 : sortedPos (fun i => Sblist.deref l (Sblist.get l i)) o (fun s x y => (cmp x y, s)) (l.count + 1) 0 (l.count - 1) s with
    | error e =>
      rw [e1] at this
      cases e2 : Sblist.sortedPos l o cmp (l.count + 1) 0 (l.count - 1) with
      | error e' => rw [e2] at this; cases this; rfl
      | ok p => rw [e2] at this; cases this
    | ok q =>
      rw [e1] at this
      cases e2 : Sblist.sortedPos l o cmp (l.count + 1) 0 (l.count - 1) with
      | error e' => rw [e2] at this; cases this
      | ok p =>
        rw [e2] at this
        obtain ⟨q1, q2, q3⟩ := q
        cases this
        rw [ok_bindE, ok_bindE]
        simp only
        cases Sblist.insert a l o q1 with
        | error e => rfl
        | ok q =>
          obtain ⟨l1, ok⟩ := q
          rw [ok_bindE, ok_bindE]
          by_cases hk : ok = 0
          · subst hk; rfl
          · simp only [if_pos hk]; rfl

/-- C191. `tglist_insert_sorted` with any comparison function: the same. -/
theorem tglist_insert_sorted_any (isz : Nat) (a : Alloc) (l : TG) (xs : List (List Byte)) (h : Tglist.Spec.Rep isz l xs)
    (hb : (2 * l.count + 4) * isz < 2^64) (o : List Byte) (ho : o.length = isz)
    (compar : σ → List Byte → List Byte → Int × σ) (s : σ) :
    ∃ l' r s' log, tglist_insert_sorted isz a l o compar s = .ok (l', r, s', log) ∧
      log.length ≤ (if xs = [] then 0 else Nat.log2 xs.length + 1) ∧ (∀ x ∈ log, x ∈ xs) ∧
      ((∀ s, ∀ x ∈ xs, (compar s o x).1 > 0) → log.length = (if xs = [] then 0 else Nat.log2 xs.length + 1)) ∧
      ((∃ p, r = some p ∧ p ≤ xs.length ∧ Tglist.Spec.Rep isz l' (xs.take p ++ o :: xs.drop p)) ∨ (r = none ∧ a = none ∧ l' = l)) := by
  obtain ⟨p, s', log, e, h1, h2, h3, h5⟩ := sortedIndex_any (Tglist.get isz l) xs
    (fun i hi => Tglist.get_spec h (Sblist.mul_lt_of hb (by omega)) hi) o compar s
  unfold tglist_insert_sorted
  rw [h.count, e, ok_bindE]
  rcases Tglist.insert_spec h hb a o ho h1 with ⟨l', e2, h4, _⟩ | ⟨ha, _, e2⟩
  · simp only
    rw [e2, ok_bindE]
    exact ⟨l', some p, s', log, rfl, h2, h3, fun h => (h5 h).1, .inl ⟨p, rfl, h1, h4⟩⟩
  · simp only
    rw [e2, ok_bindE]
    exact ⟨l, none, s', log, rfl, h2, h3, fun h => (h5 h).1, .inr ⟨rfl, ha, rfl⟩⟩

example : tglist_insert_sorted 1 (some fun _ => 0) ⟨3, 4, [2, 4, 6, 0]⟩ [5] (fun (s : Nat) x y => (firstByteCmp x y, s + 1)) 0 =
    .ok (⟨4, 4, [2, 4, 5, 6]⟩, some 2, 2, [[4], [6]]) := by decide +kernel

theorem tglist_insert_sorted_pure (isz : Nat) (a : Alloc) (l : TG) (o : List Byte) (cmp : List Byte → List Byte → Int) (s : σ) :
    (tglist_insert_sorted isz a l o (fun s x y => (cmp x y, s)) s).map (fun r => (r.1, r.2.1)) = Tglist.insert_sorted isz a l o cmp := by
  unfold tglist_insert_sorted Tglist.insert_sorted sortedIndex Tglist.sortedIndex
  by_cases h : l.count = 0
  · rw [if_pos h, if_pos h, pure_eq_ok, pure_eq_ok, ok_bindE, ok_bindE]
    simp only
    cases Tglist.insert isz a l o 0 with
    | error e => rfl
    | ok q =>
      obtain ⟨l1, ok⟩ := q
      rw [ok_bindE, ok_bindE]
      by_cases hk : ok = 0
      · subst hk; rfl
      · simp only [if_pos hk]; rfl
  · rw [if_neg h, if_neg h]
    have := sortedPos_pureT (σ := σ) _ o cmp isz l rfl (l.count + 1) 0 (l.count - 1) s
    cases e1 : sortedPos (Tglist.get isz l) o (fun s x y => (cmp x y, s)) (l.count + 1) 0 (l.count - 1) s with
    | error e =>
      rw [e1] at this
      cases e2 : Tglist.sortedPos isz l o cmp (l.count + 1) 0 (l.count - 1) with
      | error e' => rw [e2] at this; cases this; rfl
      | ok p => rw [e2] at this; cases this
    | ok q =>
      rw [e1] at this
      cases e2 : Tglist.sortedPos isz l o cmp (l.count + 1) 0 (l.count - 1) with
      | error e' => rw [e2] at this; cases this
      | ok p =>
        rw [e2] at this
        obtain ⟨q1, q2, q3⟩ := q
        cases this
        rw [ok_bindE, ok_bindE]
        simp only
        cases Tglist.insert isz a l o q1 with
        | error e => rfl
        | ok q =>
          obtain ⟨l1, ok⟩ := q
          rw [ok_bindE, ok_bindE]
          by_cases hk : ok = 0
          · subst hk; rfl
          · simp only [if_pos hk]; rfl

/-- C191. `sblist_bsearch(_r)` with any comparison function: it ends, looks only at items of the list, makes at most `⌊log₂ n⌋ + 1` comparisons,
    and returns -1 or a position of the list. If the item is below all others it makes exactly that many and returns -1. -/
theorem sblist_bsearch_any (l : SB) (xs : List (List Byte)) (h : Sblist.Spec.Rep l xs) (hb : l.count * l.itemsize < 2^64) (o : List Byte)
    (compar : σ → List Byte → List Byte → Int × σ) (s : σ) :
    ∃ r s' log, sblist_bsearch_r l o compar s = .ok (r, s', log) ∧ (∀ i, r = some i → i < xs.length) ∧
      log.length ≤ (if xs.length = 0 then 0 else Nat.log2 xs.length + 1) ∧ (∀ x ∈ log, x ∈ xs) ∧
      ((∀ s, ∀ x ∈ xs, (compar s o x).1 < 0) → log.length = (if xs.length = 0 then 0 else Nat.log2 xs.length + 1) ∧ r = none) := by
  unfold sblist_bsearch_r
  rw [h.count]
  exact bsearchLoop_any _ xs (fun i hi => Sblist.deref_get h hb hi) o compar xs.length 0 s (by omega)

example : sblist_bsearch_r ⟨1, 4, 5, 8, [2, 4, 6, 8, 9, 0, 0, 0]⟩ [1] (fun (s : Nat) x y => (firstByteCmp x y, s + 1)) 0 =
    .ok (none, 3, [[6], [4], [2]]) ∧ Nat.log2 5 + 1 = 3 := by decide +kernel

theorem sblist_bsearch_pure (l : SB) (o : List Byte) (cmp : List Byte → List Byte → Int) (s : σ) :
    (sblist_bsearch_r l o (fun s x y => (cmp x y, s)) s).map (fun r => (r.1, r.2.1)) = (Sblist.bsearch l o cmp).map (fun p => (p, s)) :=
  bsearchLoop_pure _ o cmp l rfl l.count 0 s

/-- C191. The memory an sblist asks for. After any history of calls on a new list with blocks of `b` items of `isz` bytes, its buffer has
    `m` blocks, the fewest that hold the largest number of items it ever had; it was got through buffers of 1, 2, …, `m` blocks, which
    add up to `b * isz * m * (m + 1) / 2` bytes. Deleting items gives nothing back. -/
theorem sblist_buffers (b isz : Nat) (hb : 0 < b) (hi : 0 < isz) (l : SB) (hl : Sblist.init isz b = .ok l) (ops : List Sblist.Op)
    (hsz : (ops.length + b) * isz < 2^64) (hv : Sblist.Spec.Valid l ops) :
    ∃ l' rs m, Sblist.run l ops = .ok (l', rs) ∧ l'.items.length = b * m * isz ∧
      sbPeak l ops ≤ b * m ∧ (m = 0 ∨ b * (m - 1) < sbPeak l ops) ∧
      sbBuffers l ops = (List.range m).map (fun i => b * (i + 1) * isz) ∧
      2 * (sbBuffers l ops).sum = isz * b * (m * (m + 1)) := by
  obtain ⟨l0, e, h1, h2, h3, h4⟩ := Sblist.init_rep hi hb
  rw [hl] at e
  cases e
  have hc : l.capa = 0 := by
    unfold Sblist.init at hl
    rw [if_pos (by omega)] at hl
    cases hl; rfl
  obtain ⟨l', rs, m, f1, f2, _, f4, f5⟩ := sb_history b isz hb hi ops l [] 0 0 h1 h2 h3 (by rw [h4, Nat.zero_add]; exact hsz) hv
    (by rw [hc, Nat.mul_zero]) (by omega) ⟨by simp, .inl rfl⟩
  rw [Nat.max_eq_right (Nat.zero_le _)] at f4
  have f5 : sbBuffers l ops = (List.range m).map (fun i => b * (i + 1) * isz) := by
    rw [f5]; simp
  refine ⟨l', rs, m, f1, f2, f4.1, f4.2, f5, ?_⟩
  rw [f5]
  exact sum_sb b isz m

/-- The history `sblistDemo` of C01 is allowed (shown there); its buffers. -/
example : sbBuffers ⟨2, 2, 0, 0, []⟩ sblistDemo = [4, 8] := by decide +kernel

/-- Three additions with two items in a block, a deletion and another addition. -/
example : sbBuffers ⟨1, 2, 0, 0, []⟩ [.add [1] (some fun _ => 0), .add [2] none, .add [3] (some fun _ => 0), .delete 0, .add [4] none] = [2, 4] ∧
    sbPeak ⟨1, 2, 0, 0, []⟩ [.add [1] (some fun _ => 0), .add [2] none, .add [3] (some fun _ => 0), .delete 0, .add [4] none] = 3 := by
  decide +kernel

/-- C191. The memory a tglist asks for: its buffers have 4, 8, 16, … items, up to the first that holds the largest number it ever had, and
    together they have less than four times as many. -/
theorem tglist_buffers (isz : Nat) (hi : 0 < isz) (ops : List Tglist.Op) (hsz : (2 * ops.length + 4) * isz < 2^64)
    (hv : Tglist.Spec.Valid isz Tglist.init ops) :
    ∃ l' rs m, Tglist.run isz Tglist.init ops = .ok (l', rs) ∧ l'.items.length = tgCapa m * isz ∧
      tgPeak isz Tglist.init ops ≤ tgCapa m ∧ (m = 0 ∨ tgCapa (m - 1) < tgPeak isz Tglist.init ops) ∧
      tgBuffers isz Tglist.init ops = (List.range m).map (fun i => tgCapa (i + 1) * isz) ∧
      (tgBuffers isz Tglist.init ops).sum ≤ 4 * tgPeak isz Tglist.init ops * isz := by
  obtain ⟨l', rs, m, f1, f2, _, f4, f5⟩ := tg_history isz hi ops Tglist.init [] 0 0 (Tglist.init_rep hi)
    (by show (2 * (0 + ops.length) + 4) * isz < 2^64; rw [Nat.zero_add]; exact hsz) hv rfl (Nat.le_refl _) ⟨by simp, .inl rfl⟩
  rw [Nat.max_eq_right (Nat.zero_le _)] at f4
  have f5 : tgBuffers isz Tglist.init ops = (List.range m).map (fun i => tgCapa (i + 1) * isz) := by
    rw [f5]; simp
  refine ⟨l', rs, m, f1, f2, f4.1, f4.2, f5, ?_⟩
  rw [f5]
  have hs := sum_tg isz m
  generalize ((List.range m).map fun i => tgCapa (i + 1) * isz).sum = S at hs ⊢
  obtain ⟨_, h2⟩ := f4
  generalize tgPeak isz Tglist.init ops = P at h2 ⊢
  match m, h2 with
  | 0, _ => simp at hs; omega
  | 1, h2 =>
    have : 0 < P := h2.resolve_left (by omega)
    have : 4 * 1 * isz ≤ 4 * P * isz := Nat.mul_le_mul_right _ (by omega)
    omega
  | k + 2, h2 =>
    have h2 : 4 * 2 ^ k < P := h2.resolve_left (by omega)
    have : 4 * 2 ^ (k + 2) * isz ≤ 4 * P * isz := Nat.mul_le_mul_right _ (by rw [Nat.pow_succ, Nat.pow_succ]; omega)
    omega

example : tgBuffers 1 Tglist.init ((List.range 9).map fun _ => .add [1] (some fun _ => 0)) = [4, 8, 16] ∧
    tgPeak 1 Tglist.init ((List.range 9).map fun _ => .add [1] (some fun _ => 0)) = 9 := by decide +kernel

end Ulz.Props

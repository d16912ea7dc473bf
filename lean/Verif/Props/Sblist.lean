import Verif.Proofs.Sblist
/-! C25–C30: the flat list `sblist`. -/
set_option linter.unusedVariables false
namespace Ulz.Props
open Ulz.Sblist Ulz.Sblist.Spec

/-- C25. A fresh list with positive item and block size, under any sequence of allowed calls with any
    pattern of allocation failures, never touches memory outside its buffer, and its results are those
    of the same calls on a mathematical list that starts empty. At the end `sblist_getsize` and
    `sblist_get` show exactly the mathematical list. (The total number of bytes must fit `size_t`.) -/
theorem sblist_refines_list (isz bi : Nat) (hi : 0 < isz) (hb : 0 < bi) (ops : List Op)
    (hsz : (ops.length + bi) * isz < 2^64) :
    ∃ l, init isz bi = .ok l ∧ (Valid l ops →
      ∃ l' rs xs, run l ops = .ok (l', rs) ∧ Steps [] ops xs rs ∧ l'.count = xs.length ∧
        ∀ i, content l' (get l' i) = .ok xs[i]?) := by
  obtain ⟨l, h1, h2, h3, h4, h5⟩ := init_rep hi hb
  refine ⟨l, h1, fun hv => ?_⟩
  obtain ⟨l', rs, xs, r1, r2, r3, r4, r5⟩ := run_spec ops l [] h2 (by omega)
    (by rw [h3, h4, h5]; exact mul_lt_of hsz (by omega)) hv
  refine ⟨l', rs, xs, r1, r2, r3.count, get_content r3 ?_⟩
  rw [r4, h4]
  exact mul_lt_of hsz (by omega)

/-- Non-vacuity: a sequence with a failing allocation, an insertion in the middle, a deletion and a pop. -/
def sblistDemo : List Op :=
  [.add [1, 2] (some fun _ => 9), .add [3, 4] none, .add [5, 6] none, .insert [7, 8] 1 (some fun _ => 9),
   .set [0, 0] 2, .get 1, .delete 0, .pop]

example : ∃ l, init 2 2 = .ok l ∧ run l sblistDemo =
    .ok (⟨2, 2, 1, 4, [7, 8, 0, 0, 0, 0, 9, 9]⟩,
      [.int 1, .int 1, .int 0, .int 1, .int 1, .item (some [7, 8]), .unit, .item (some [0, 0])]) :=
  ⟨_, rfl, by decide⟩

/-- The demo sequence is allowed, so `sblist_refines_list` applies to it. -/
example : Valid ⟨2, 2, 0, 0, []⟩ sblistDemo := by
  intro pre op post he l' rs hr
  match pre, he with
  | [], he => cases he; cases hr; simp [OpOk]
  | [_], he => cases he; cases hr; simp [OpOk]
  | [_, _], he => cases he; cases hr; simp [OpOk]
  | [_, _, _], he => cases he; cases hr; simp [OpOk]
  | [_, _, _, _], he => cases he; cases hr; simp [OpOk]
  | [_, _, _, _, _], he => cases he; simp [OpOk]
  | [_, _, _, _, _, _], he => cases he; simp [OpOk]
  | [_, _, _, _, _, _, _], he => cases he; simp [OpOk]
  | _ :: _ :: _ :: _ :: _ :: _ :: _ :: _ :: pre, he =>
    have := congrArg List.length he
    simp [sblistDemo] at this

/-- C25, the restriction on insertions is needed: inserting beyond the end is undefined behaviour
    whenever memory is available (the buffer and the position being within the address space). -/
theorem sblist_insert_beyond_end (l : SB) (xs : List (List Byte)) (hr : Rep l xs) (hb : 0 < l.blockitems)
    (hsz : (l.count + l.blockitems) * l.itemsize < 2^64) (hcap : l.capa * l.itemsize < 2^64)
    (x : List Byte) (pos : Nat) (hp : l.count < pos) (hp2 : pos * l.itemsize < 2^64) (f : Nat → Byte) :
    insert (some f) l x pos = .error .oobRead := by
  unfold Sblist.insert
  rcases grow_spec hr hb hsz (some f) with ⟨l1, h1, h2, h3, h4, h5, h6⟩ | ⟨h1, _⟩
  · rw [h1]
    simp only [Nat.one_ne_zero, if_false]
    have hc : l1.count = l.count := by rw [h2.count, hr.count]
    have hlen := h2.items_length
    have hbig : l1.items.length < 2^64 := by
      rw [hlen, h4]
      rcases h6 with h6 | h6
      · rw [h6]; exact hcap
      · rw [h6]; exact hsz
    have hpos1 : 1 ≤ l.itemsize := hr.isz
    have hple : pos * 1 ≤ pos * l.itemsize := Nat.mul_le_mul_left _ hpos1
    have hsub : sztSub l1.count pos = 2^64 - (pos - l.count) := by
      unfold sztSub; omega
    have hd : (pos - l.count) * l.itemsize ≤ pos * l.itemsize := Nat.mul_le_mul_right _ (by omega)
    have hd0 : 0 < (pos - l.count) * l.itemsize := Nat.mul_pos (by omega) hr.isz
    have hmul : szt (sztSub l1.count pos * l1.itemsize) = 2^64 - (pos - l.count) * l.itemsize := by
      rw [hsub, h4, Nat.sub_mul]
      unfold szt
      have h64 : 2^64 * 1 ≤ 2^64 * l.itemsize := Nat.mul_le_mul_left _ hpos1
      have : 2^64 * l.itemsize - (pos - l.count) * l.itemsize =
          2^64 * (l.itemsize - 1) + (2^64 - (pos - l.count) * l.itemsize) := by
        rw [Nat.mul_sub]; omega
      rw [this, Nat.mul_add_mod]
      exact Nat.mod_eq_of_lt (by omega)
    rw [hmul, h4, szt_of_lt hp2]
    unfold memmove rdN
    rw [if_neg (by omega)]
    rfl
  · cases h1

example : Rep ⟨2, 2, 1, 2, [7, 8, 0, 0]⟩ [[7, 8]] :=
  ⟨by simp, rfl, by simp, by simp, [0, 0], rfl, rfl⟩

/-- C26. When the allocator fails, a call that inserts either did not need memory and succeeds, or
    reports failure (0, resp. -1) and the list object is exactly what it was. With a working allocator
    it always succeeds. -/
theorem sblist_failed_growth (l : SB) (xs : List (List Byte)) (hr : Rep l xs) (hb : 0 < l.blockitems)
    (hsz : (l.count + l.blockitems) * l.itemsize < 2^64) (a : Alloc) (x : List Byte)
    (hx : x.length = l.itemsize) (pos : Nat) (hp : pos ≤ l.count) :
    (∃ l1 l2, add a l x = .ok (l1, 1) ∧ addi a l x = .ok (l1, some l.count) ∧ insert a l x pos = .ok (l2, 1) ∧
      Rep l1 (xs ++ [x]) ∧ Rep l2 (xs.take pos ++ x :: xs.drop pos)) ∨
    (a = none ∧ l.count = l.capa ∧ add a l x = .ok (l, 0) ∧ addi a l x = .ok (l, none) ∧
      insert a l x pos = .ok (l, 0)) := by
  by_cases hf : a = none ∧ l.count = l.capa
  · right
    obtain ⟨rfl, hc⟩ := hf
    refine ⟨rfl, hc, ?_, ?_, ?_⟩ <;> simp [add, addi, Sblist.insert, grow_if_needed, hc, realloc, pure_eq_ok]
  · left
    have hg : grow_if_needed a l ≠ (l, 0) := by
      unfold grow_if_needed
      by_cases hc : l.count = l.capa
      · rw [if_pos hc]
        cases a with
        | none => exact absurd ⟨rfl, hc⟩ hf
        | some f => simp [realloc]
      · rw [if_neg hc]; simp
    have hnone : ∀ {l' : SB}, grow_if_needed a l = (l', 0) → False := by
      intro l' h
      rcases grow_spec hr hb hsz a with ⟨l1, h1, _⟩ | ⟨_, h2⟩
      · rw [h1] at h; cases h
      · exact hg h2
    rcases add_spec hr hb hsz a x hx with ⟨l1, h1, h2, h3, _, _⟩ | ⟨h1, h2, _⟩
    · rcases insert_spec hr hb hsz a x hx pos (by rw [← hr.count]; exact hp) with ⟨l2, i1, i2, _, _⟩ | ⟨i1, i2⟩
      · exact ⟨l1, l2, h1, by rw [h2, hr.count], i1, h3, i2⟩
      · subst i1
        exfalso
        rcases grow_spec hr hb hsz none with ⟨l3, h1, h2', h3', h4', _⟩ | ⟨_, h2⟩
        · unfold grow_if_needed at h1
          by_cases hc : l.count = l.capa
          · exact hf ⟨rfl, hc⟩
          · rw [if_neg hc] at h1
            unfold Sblist.insert at i2
            unfold grow_if_needed at i2
            rw [if_neg hc] at i2
            simp only [Nat.one_ne_zero, if_false] at i2
            cases hm : memmove l.items (szt ((pos + 1) * l.itemsize)) (szt (pos * l.itemsize))
              (szt (sztSub l.count pos * l.itemsize)) with
            | error e => rw [hm] at i2; cases i2
            | ok v =>
              rw [hm] at i2
              simp only [ok_bind] at i2
              unfold Sblist.set at i2
              simp only at i2
              rw [if_neg (by omega)] at i2
              cases hm2 : rdN x 0 l.itemsize with
              | error e => rw [hm2] at i2; cases i2
              | ok v2 =>
                rw [hm2] at i2
                simp only [ok_bind] at i2
                cases hm3 : wrN v (szt (pos * l.itemsize)) v2 with
                | error e => rw [hm3] at i2; cases i2
                | ok v3 => rw [hm3] at i2; simp [pure_eq_ok] at i2
        · exact hnone h2
    · subst h1
      exfalso
      have hc : l.count ≠ l.capa := fun hc => hf ⟨rfl, hc⟩
      unfold add grow_if_needed at h2
      rw [if_neg hc] at h2
      simp only [Nat.one_ne_zero, if_false, Nat.add_sub_cancel] at h2
      obtain ⟨l3, s1, _⟩ := add_raw hr (by have := hr.capa; omega) (mul_lt_of hsz (by omega)) x hx
      rw [s1] at h2
      cases h2

/-- Both branches occur: without spare capacity a failing allocator makes the calls fail. -/
example : add none ⟨2, 2, 1, 1, [7, 8]⟩ [5, 6] = .ok (⟨2, 2, 1, 1, [7, 8]⟩, 0) ∧
    add none ⟨2, 2, 1, 2, [7, 8, 0, 0]⟩ [5, 6] = .ok (⟨2, 2, 2, 2, [7, 8, 5, 6]⟩, 1) := by decide

/-- C27. `sblist_insert_sorted` (and `_r`): for any comparison function it terminates without touching
    foreign memory and puts the item at the returned index, the other items keeping their order; if the
    comparison is a total preorder and the list was sorted, it is sorted afterwards. If the list
    has no spare capacity and the allocator fails it instead returns -1 with the list unchanged. -/
theorem sblist_insert_sorted_correct (l : SB) (xs : List (List Byte)) (hr : Rep l xs) (hb : 0 < l.blockitems)
    (hsz : (l.count + l.blockitems) * l.itemsize < 2^64) (a : Alloc) (o : List Byte) (ho : o.length = l.itemsize)
    (cmp : List Byte → List Byte → Int) :
    (∃ l' p, insert_sorted a l o cmp = .ok (l', some p) ∧ p ≤ xs.length ∧ Rep l' (xs.take p ++ o :: xs.drop p) ∧
      (TotalPreorder cmp → Sorted cmp xs → Sorted cmp (xs.take p ++ o :: xs.drop p))) ∨
    (a = none ∧ l.count = l.capa ∧ insert_sorted a l o cmp = .ok (l, none)) :=
  insert_sorted_spec hr hb hsz a o ho cmp

/-- A total preorder with distinct equivalent items: comparing first bytes only. -/
def firstByteCmp (a b : List Byte) : Int := ((a.headD 0).toNat : Int) - (b.headD 0).toNat

theorem firstByteCmp_preorder : TotalPreorder firstByteCmp :=
  ⟨by intro a; simp [firstByteCmp], by intro a b; simp only [firstByteCmp]; omega,
   by intro a b c; simp only [firstByteCmp]; omega⟩

example : insert_sorted none ⟨2, 4, 3, 4, [1, 0, 3, 0, 3, 1, 0, 0]⟩ [3, 9] firstByteCmp =
    .ok (⟨2, 4, 4, 4, [1, 0, 3, 9, 3, 0, 3, 1]⟩, some 1) := by decide +kernel
example : Sorted firstByteCmp [[1, 0], [3, 0], [3, 1]] := by unfold Sorted; decide

/-- C28. `sblist_bsearch` (and `_r`): for any list and comparison function it terminates, looks only at
    items of the list, and a returned index holds an item that compares equal; on a sorted list with a
    total preorder it returns -1 exactly when no item compares equal. -/
theorem sblist_bsearch_correct (l : SB) (xs : List (List Byte)) (hr : Rep l xs)
    (hsz : l.count * l.itemsize < 2^64) (item : List Byte) (cmp : List Byte → List Byte → Int) :
    ∃ r, bsearch l item cmp = .ok r ∧ (∀ i, r = some i → ∃ h : i < xs.length, cmp item xs[i] = 0) ∧
      (TotalPreorder cmp → Sorted cmp xs → (r = none ↔ ∀ y ∈ xs, cmp item y ≠ 0)) := by
  unfold bsearch
  obtain ⟨r, h1, h2, h3⟩ := bsearchLoop_spec hr hsz item cmp l.count 0 (by rw [hr.count]; omega)
  refine ⟨r, h1, h2, fun hc hs => ⟨fun hn => ?_, fun hall => ?_⟩⟩
  · intro y hy
    obtain ⟨i, hi, rfl⟩ := List.mem_iff_getElem.1 hy
    exact h3 hc hs hn i hi (by omega) (by rw [hr.count]; omega)
  · cases r with
    | none => rfl
    | some i =>
      obtain ⟨h, he⟩ := h2 i rfl
      exact absurd he (hall _ (List.getElem_mem h))

example : bsearch ⟨1, 4, 4, 4, [1, 3, 5, 7]⟩ [5] firstByteCmp = .ok (some 2) ∧
    bsearch ⟨1, 4, 4, 4, [1, 3, 5, 7]⟩ [6] firstByteCmp = .ok none := by decide +kernel

/-- C29, first half. In every state reached from a fresh list with a non-zero block size the number of
    items does not exceed the capacity, and the capacity is really allocated. -/
theorem sblist_within_capacity (isz bi : Nat) (hi : 0 < isz) (hb : 0 < bi) (ops : List Op)
    (hsz : (ops.length + bi) * isz < 2^64) (l : SB) (hl : init isz bi = .ok l) (hv : Valid l ops) :
    ∃ l' rs, run l ops = .ok (l', rs) ∧ l'.count ≤ l'.capa ∧ l'.items.length = l'.capa * isz := by
  obtain ⟨l0, h1, h2, h3, h4, h5⟩ := init_rep hi hb
  rw [hl] at h1
  cases h1
  obtain ⟨l', rs, xs, r1, r2, r3, r4, r5⟩ := run_spec ops l [] h2 (by omega)
    (by rw [h3, h4, h5]; exact mul_lt_of hsz (by omega)) hv
  exact ⟨l', rs, r1, r3.capa, by rw [r3.items_length, r4, h4]⟩

/-- C29, second half. A list made by `sblist_new_from_data` overruns its buffer on the first add that
    gets memory, whatever the data. -/
theorem sblist_from_data_overruns (isz : Nat) (hi : 0 < isz) (data : List Byte) (hd : data.length < 2^64) :
    ∃ l, new_from_data isz data = .ok l ∧ ∀ x f, x.length = isz →
      add (some f) l x = .error .oobWrite ∧ add none l x = .ok (l, 0) := by
  refine ⟨⟨isz, 0, data.length / isz, data.length / isz, data⟩, by simp [new_from_data, pure_eq_ok]; omega, ?_⟩
  intro x f hx
  have hle : data.length / isz * isz ≤ data.length := Nat.div_mul_le_self _ _
  constructor
  · unfold add grow_if_needed
    simp only [if_true, Nat.add_zero]
    rw [szt_of_lt (by omega)]
    simp only [realloc, Option.map, Nat.one_ne_zero, if_false, Nat.add_sub_cancel]
    unfold Sblist.set
    simp only
    rw [if_neg (by omega), szt_of_lt (by omega)]
    have hrd : rdN x 0 isz = .ok x := rdN_all hx
    rw [hrd]
    simp only [ok_bind]
    unfold wrN
    rw [if_neg (by simp; omega)]
    rfl
  · simp [add, grow_if_needed, realloc, pure_eq_ok]

/-- C29, second half. The same for `sblist_new`/`sblist_init` with block size 0 and items larger than
    4096 bytes. -/
theorem sblist_big_items_overrun (isz : Nat) (hi : 4096 < isz) :
    ∃ l, init isz 0 = .ok l ∧ ∀ x f, x.length = isz → add (some f) l x = .error .oobWrite := by
  have h0 : 4096 / isz = 0 := Nat.div_eq_of_lt hi
  refine ⟨⟨isz, 0, 0, 0, []⟩, by simp [init, h0, pure_eq_ok]; omega, ?_⟩
  intro x f hx
  unfold add grow_if_needed
  simp only [if_true, Nat.add_zero, Nat.zero_mul]
  rw [szt_of_lt (by omega)]
  simp only [realloc, Option.map, Nat.one_ne_zero, if_false, Nat.add_sub_cancel]
  unfold Sblist.set
  simp only
  rw [if_neg (by omega), Nat.zero_mul, szt_of_lt (by omega)]
  have hrd : rdN x 0 isz = .ok x := rdN_all hx
  rw [hrd]
  simp only [ok_bind]
  unfold wrN
  rw [if_neg (by simp only [List.length_append, List.length_take, List.length_map, List.length_range, List.length_nil]; omega)]
  rfl

/-- With block size 0 and items of at most 4096 bytes the block size becomes positive, so the theorems
    above apply. -/
theorem sblist_default_block (isz : Nat) (h1 : 0 < isz) (h2 : isz ≤ 4096) :
    ∃ l, init isz 0 = .ok l ∧ init isz (4096 / isz) = .ok l ∧ 0 < l.blockitems := by
  have : 0 < 4096 / isz := Nat.div_pos h2 h1
  exact ⟨⟨isz, 4096 / isz, 0, 0, []⟩, by simp [init, pure_eq_ok]; omega, by simp [init, pure_eq_ok]; omega, this⟩

/-- C30. `sblist_free_values` on a well-formed list whose buffer is at address `base` and disjoint from
    all other allocated objects `live`: a list with one item loses its own buffer (the stored pointer, and
    everything else, stays allocated), a list with more items passes an address to `free` that no
    allocation returned. Only the empty list is handled as documented. -/
theorem sblist_free_values_wrong (l : SB) (xs : List (List Byte)) (hr : Rep l xs)
    (hsz : l.count * l.itemsize < 2^64) (base : Nat) (live : List Nat)
    (hdis : ∀ a ∈ live, a < base ∨ base + l.items.length ≤ a) :
    free_values l base (base :: live) =
      if l.count = 0 then .ok (base :: live)
      else if l.count = 1 then .ok live
      else .error .badFree := by
  unfold free_values
  have hil := hr.items_length
  match hc : l.count with
  | 0 => simp [freeValuesLoop, pure_eq_ok]
  | 1 => simp [freeValuesLoop, Sblist.get, hc, szt, hfree, pure_eq_ok]
  | n + 2 =>
    have hle : 2 * l.itemsize ≤ l.capa * l.itemsize := Nat.mul_le_mul_right _ (by have := hr.capa; omega)
    have h1 : l.itemsize < 2^64 := by
      have : 1 * l.itemsize ≤ l.count * l.itemsize := Nat.mul_le_mul_right _ (by omega)
      omega
    have hnot : base + l.itemsize ∉ live := by
      intro hm
      have := hdis _ hm
      have := hr.isz
      omega
    simp [freeValuesLoop, Sblist.get, hc, szt, hfree, pure_eq_ok, Nat.mod_eq_of_lt h1, hnot]

/-- Two stored pointers (8 bytes each) in a buffer at address 4096. -/
example : free_values ⟨8, 2, 2, 2, [0,16,0,0,0,0,0,0, 0,32,0,0,0,0,0,0]⟩ 4096 [4096, 5000, 8192] = .error .badFree := by
  decide
example : Rep ⟨8, 2, 2, 2, [0,16,0,0,0,0,0,0, 0,32,0,0,0,0,0,0]⟩ [[0,16,0,0,0,0,0,0], [0,32,0,0,0,0,0,0]] :=
  ⟨by simp, rfl, by simp, by simp, [], rfl, rfl⟩

end Ulz.Props

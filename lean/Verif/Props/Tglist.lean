import Verif.Proofs.Tglist
/-! C36, C37, C82, C83: the header-only lists `tglist` and `tgilist`. -/
set_option linter.unusedVariables false
namespace Ulz.Props
open Ulz.Tglist Ulz.Tglist.Spec
open Ulz.Sblist.Spec (TotalPreorder Sorted)

/-- C36. A fresh list, under any sequence of allowed calls with any pattern of allocation failures,
    never touches memory outside its buffer; its results are those of the same calls on a mathematical
    list that starts empty; at the end size and items are those of the mathematical list, and the
    capacity is 0 or 4·2^k, really allocated. (The bytes requested must fit `size_t`.) -/
theorem tglist_refines_list (isz : Nat) (hi : 0 < isz) (ops : List Op)
    (hsz : (2 * ops.length + 4) * isz < 2^64) (hv : Valid isz init ops) :
    ∃ l rs xs, run isz init ops = .ok (l, rs) ∧ Steps [] ops xs rs ∧ l.count = xs.length ∧
      (∀ i (h : i < xs.length), get isz l i = .ok xs[i]) ∧
      l.count ≤ l.capa ∧ l.items.length = l.capa * isz ∧ CapaOk l.capa := by
  obtain ⟨l, rs, xs, r1, r2, r3, r4, r5⟩ := run_spec ops init [] (init_rep hi) (Or.inl rfl)
    (mul_lt_of' hsz (by simp [init])) hv
  refine ⟨l, rs, xs, r1, r2, r3.count, fun i h => get_spec r3 ?_ h, r3.capa, r3.items_length, r4⟩
  have : l.count ≤ ops.length := by simpa [init] using r5
  exact mul_lt_of' hsz (by omega)
where
  mul_lt_of' {a b k m : Nat} (h : b * k < m) (hab : a ≤ b) : a * k < m := Ulz.Sblist.mul_lt_of h hab

/-- Non-vacuity: growth, a failing growth, insertion in the middle, deletion. -/
def tglistDemo : List Op :=
  [.add [1, 2] none, .add [1, 2] (some fun _ => 9), .add [3, 4] none, .insert [7, 8] 1 none, .set [0, 0] 2, .get 1,
   .delete 0, .getsize]

example : run 2 init tglistDemo =
    .ok (⟨2, 4, [7, 8, 0, 0, 0, 0, 9, 9]⟩,
      [.int 0, .int 1, .int 1, .int 1, .int 1, .item [7, 8], .unit, .int 2]) := by decide

example : Valid 2 init tglistDemo := by
  intro pre op post he l' rs hr
  match pre, he with
  | [], he => cases he; cases hr; simp [OpOk]
  | [_], he => cases he; cases hr; simp [OpOk]
  | [_, _], he => cases he; cases hr; simp [OpOk]
  | [_, _, _], he => cases he; cases hr; simp [OpOk]
  | [_, _, _, _], he => cases he; cases hr; simp [OpOk]
  | [_, _, _, _, _], he => cases he; cases hr; simp [OpOk]
  | [_, _, _, _, _, _], he => cases he; cases hr; simp [OpOk]
  | [_, _, _, _, _, _, _], he => cases he; simp [OpOk]
  | _ :: _ :: _ :: _ :: _ :: _ :: _ :: _ :: pre, he =>
    have := congrArg List.length he
    simp [tglistDemo] at this

/-- C36, failures: an insertion fails exactly when memory was needed (no spare capacity) and refused,
    and then the list object is exactly what it was. -/
theorem tglist_fails_iff (isz : Nat) (l : TG) (xs : List (List Byte)) (hr : Rep isz l xs)
    (hsz : (2 * l.count + 4) * isz < 2^64) (a : Alloc) (x : List Byte) (hx : x.length = isz) (pos : Nat)
    (hp : pos ≤ l.count) :
    (if a = none ∧ l.count = l.capa then
      add isz a l x = .ok (l, 0) ∧ insert isz a l x pos = .ok (l, 0)
     else ∃ l1 l2, add isz a l x = .ok (l1, 1) ∧ Rep isz l1 (xs ++ [x]) ∧
      insert isz a l x pos = .ok (l2, 1) ∧ Rep isz l2 (xs.take pos ++ x :: xs.drop pos)) := by
  by_cases hf : a = none ∧ l.count = l.capa
  · rw [if_pos hf]
    obtain ⟨rfl, hc⟩ := hf
    constructor <;> simp [add, Tglist.insert, grow_if_needed, hc, realloc, pure_eq_ok]
  · rw [if_neg hf]
    rcases add_spec hr hsz a x hx with ⟨l1, h1, h2, _⟩ | ⟨h1, h2, _⟩
    · rcases insert_spec hr hsz a x hx (pos := pos) (by rw [← hr.count]; exact hp) with ⟨l2, i1, i2, _⟩ | ⟨i1, i2, _⟩
      · exact ⟨l1, l2, h1, h2, i1, i2⟩
      · exact absurd ⟨i1, i2⟩ hf
    · exact absurd ⟨h1, h2⟩ hf

example : Rep 2 ⟨1, 4, [7, 8, 0, 0, 0, 0, 0, 0]⟩ [[7, 8]] :=
  ⟨by simp, rfl, by simp, by simp, [0, 0, 0, 0, 0, 0], rfl, rfl⟩
example : Rep 2 ⟨1, 1, [7, 8]⟩ [[7, 8]] := ⟨by simp, rfl, by simp, by simp, [], rfl, rfl⟩

/-- C83. `tglist_insert_sorted`: as for sblist. -/
theorem tglist_insert_sorted_correct (isz : Nat) (l : TG) (xs : List (List Byte)) (hr : Rep isz l xs)
    (hsz : (2 * l.count + 4) * isz < 2^64) (a : Alloc) (o : List Byte) (ho : o.length = isz)
    (cmp : List Byte → List Byte → Int) :
    (∃ l' p, insert_sorted isz a l o cmp = .ok (l', some p) ∧ p ≤ xs.length ∧
      Rep isz l' (xs.take p ++ o :: xs.drop p) ∧
      (TotalPreorder cmp → Sorted cmp xs → Sorted cmp (xs.take p ++ o :: xs.drop p))) ∨
    (a = none ∧ l.count = l.capa ∧ insert_sorted isz a l o cmp = .ok (l, none)) :=
  insert_sorted_spec hr hsz a o ho cmp

example : insert_sorted 1 none ⟨3, 4, [1, 3, 7, 0]⟩ [5] (fun a b => ((a.headD 0).toNat : Int) - (b.headD 0).toNat) =
    .ok (⟨4, 4, [1, 3, 5, 7]⟩, some 2) := by decide +kernel

/-- C82. `tglist_free_values` on a list of pointers (8-byte items): if the non-null stored pointers are
    distinct allocated objects, exactly those are freed, once each, and the list is empty afterwards.
    (`live` lists the addresses of allocated objects.) -/
theorem tglist_free_values_correct (l : TG) (xs : List (List Byte)) (hr : Rep 8 l xs)
    (hsz : l.count * 8 < 2^64) (live : List Nat) (hl : live.Nodup)
    (hd : ((xs.map leVal).filter (· ≠ 0)).Nodup) (hm : ∀ p ∈ xs.map leVal, p ≠ 0 → p ∈ live) :
    ∃ live', free_values 8 l live = .ok ({ l with count := 0 }, live') ∧ live'.Nodup ∧
      ∀ a, a ∈ live' ↔ a ∈ live ∧ (a = 0 ∨ a ∉ xs.map leVal) := by
  obtain ⟨live', h1, h2, h3⟩ := freeValuesLoop_spec hr hsz l.count l.count live (by rw [hr.count]; exact Nat.le_refl _)
    (by rw [hr.count, List.take_length]; exact hd) (by rw [hr.count, List.take_length]; exact hm) hl
  refine ⟨live', ?_, h2, by rw [hr.count, List.take_length] at h3; exact h3⟩
  unfold free_values
  rw [if_pos rfl]
  have : (if l.count = 0 then l.count else 0) = 0 := by split <;> omega
  rw [this] at h1
  exact h1

/-- Pointers 4096, NULL and 8192. -/
example : free_values 8 ⟨3, 4, leBytes 8 4096 ++ leBytes 8 0 ++ leBytes 8 8192 ++ leBytes 8 77⟩ [5000, 4096, 8192] =
    .ok (⟨0, 4, leBytes 8 4096 ++ leBytes 8 0 ++ leBytes 8 8192 ++ leBytes 8 77⟩, [5000]) := by decide +kernel

/-- C37. A fresh tgilist (`w` the size of the unsigned index type) under any sequence of allowed calls
    with any pattern of failures in its two arrays acts as a mathematical list that starts empty and
    touches no foreign memory, provided the number of calls is at most the number of index values. -/
theorem tgilist_refines_list (w isz : Nat) (hw : 0 < w) (hi : 0 < isz) (ops : List IOp)
    (h1 : (2 * ops.length + 4) * w < 2^64) (h2 : (2 * ops.length + 4) * isz < 2^64)
    (hfit : ops.length ≤ 256^w) (hv : IValid w isz iinit ops) :
    ∃ l rs xs, irun w isz iinit ops = .ok (l, rs) ∧ ISteps [] ops xs rs ∧ l.index.count = xs.length ∧
      ∀ i (h : i < xs.length), iget w isz l i = .ok xs[i] := by
  obtain ⟨l, rs, idxs, vals, r1, r2, r3, r4, r5⟩ := irun_spec ops iinit [] [] (iinit_rep hw hi)
    (by simp [iinit, init]) (by simpa using h1) (by simpa using h2) (by simpa using hfit) hv
  simp only [List.length_nil, Nat.zero_add] at r4
  have hcc : l.index.count = idxs.length := by have := r3.index.count; simpa using this
  refine ⟨l, rs, look vals idxs, r1, r2, by rw [hcc]; simp [look], ?_⟩
  intro i hi'
  have hp : i < idxs.length := by simpa [look] using hi'
  have hlt := r3.lt _ (List.getElem_mem hp)
  unfold iget
  rw [iidx_spec r3 (Ulz.Sblist.mul_lt_of h1 (by omega)) hp]
  simp only [ok_bind]
  rw [get_spec r3.items (Ulz.Sblist.mul_lt_of h2 (by rw [r3.items.count]; omega)) hlt]
  simp [look, List.getD_eq_getElem?_getD, hlt]

/-- Non-vacuity: an add whose second array fails, an insert whose index array fails, a successful
    insert, a delete. -/
def tgilistDemo : List IOp :=
  [.add [1, 2] (some fun _ => 0) none, .add [1, 2] none (some fun _ => 9), .insert [7, 8] 0 none none, .set [5, 5] 1,
   .get 1, .delete 0, .getsize]

example : irun 1 2 iinit tgilistDemo =
    .ok (⟨⟨1, 4, [0, 0, 0, 0]⟩, ⟨2, 4, [5, 5, 7, 8, 9, 9, 9, 9]⟩⟩,
      [.int 0, .int 1, .int 1, .int 1, .item [5, 5], .unit, .int 1]) := by decide +kernel

example : IValid 1 2 iinit tgilistDemo := ivalidB_sound _ _ (by decide +kernel)

/-- C37, the limit is exact: after as many values as there are index values (256^w), adding one more
    succeeds but the new item reads as the first value added. -/
theorem tgilist_index_wraps (w isz : Nat) (hw : 0 < w) (hi : 0 < isz) (xs : List (List Byte))
    (hxs : ∀ x ∈ xs, x.length = isz) (hlen : xs.length = 256^w)
    (h1 : (2 * xs.length + 4) * w < 2^64) (h2 : (2 * xs.length + 4) * isz < 2^64)
    (x : List Byte) (hx : x.length = isz) (f g : Nat → Byte) :
    ∃ l rs l', irun w isz iinit (xs.map fun x => .add x (some f) (some g)) = .ok (l, rs) ∧
      iadd w isz (some f) (some g) l x = .ok (l', 1) ∧ l'.index.count = xs.length + 1 ∧
      iget w isz l' xs.length = .ok (xs[0]'(by rw [hlen]; exact Nat.pow_pos (by decide))) := by
  have hpos : 0 < 256^w := Nat.pow_pos (by decide)
  obtain ⟨l, rs, r1, r2⟩ := iadd_all hw hi f g xs hxs h1 h2 (by omega) iinit []
    (iinit_rep hw hi) (by simpa using h1) (by simpa using h2) (by simp [hlen])
  simp only [List.nil_append] at r2
  have hcc : l.index.count = xs.length := by have := r2.index.count; simpa using this
  have hci : l.items.count = xs.length := r2.items.count
  rcases add_spec r2.index (Ulz.Sblist.mul_lt_of h1 (by omega)) (some f) (leBytes w xs.length) (leBytes_length _ _)
    with ⟨ix, a1, a2, _⟩ | ⟨a1, _⟩
  · rcases add_spec r2.items (Ulz.Sblist.mul_lt_of h2 (by omega)) (some g) x hx with ⟨t, b1, b2, _⟩ | ⟨b1, _⟩
    · refine ⟨l, rs, ⟨ix, t⟩, r1, ?_, ?_, ?_⟩
      · unfold iadd
        rw [hci, a1]
        simp only [ok_bind, Nat.one_ne_zero, if_false, b1]
        rfl
      · have := a2.count; simpa using this
      · unfold iget iidx
        have hic : ix.count = xs.length + 1 := by have := a2.count; simpa using this
        have htc : t.count = xs.length + 1 := by have := b2.count; simpa using this
        rw [get_spec a2 (Ulz.Sblist.mul_lt_of h1 (by omega)) (i := xs.length) (by simp)]
        simp only [ok_bind, pure_eq_ok]
        rw [List.getElem_append_right (by simp)]
        simp only [List.length_map, List.length_range, Nat.sub_self, List.getElem_cons_zero, leVal_leBytes_mod, hlen, Nat.mod_self]
        rw [get_spec b2 (Ulz.Sblist.mul_lt_of h2 (by omega)) (i := 0) (by simp)]
        rw [List.getElem_append_left]
    · cases b1
  · cases a1

/-- The hypotheses hold for one-byte indices and one-byte values. -/
example : (List.replicate 256 ([0] : List Byte)).length = 256^1 ∧ (2 * 256 + 4) * 1 < 2^64 :=
  ⟨by rw [List.length_replicate], by omega⟩

end Ulz.Props

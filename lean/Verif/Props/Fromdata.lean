import Verif.Proofs.Fromdata
import Verif.Spec.Life
/-! C174, C175: lists made from existing memory. -/
namespace Ulz.Props
open Ulz.Sblist Ulz.Sblist.Spec Ulz.Fromdata Ulz.Fromdata.Spec
open Ulz.Life (Mem)

/-- C174: a list made from existing memory by `sblist_new_from_data` and given a block size by `sblist_set_blockitems` behaves under every
    sequence of allowed calls, with any pattern of allocation failures, like a mathematical list that starts with the items in that memory,
    and never touches memory outside its buffer. The size of the memory need not be a multiple of the item size. -/
theorem sblist_from_data_refines (isz bi : Nat) (hi : 0 < isz) (hb : 0 < bi) (data : List Byte) (ops : List Op)
    (hsz : (data.length / isz + ops.length + bi) * isz < 2^64) :
    ∃ l, new_from_data isz data = .ok l ∧ (Valid (set_blockitems l bi) ops →
      ∃ l' rs xs, run (set_blockitems l bi) ops = .ok (l', rs) ∧ Steps (items isz data) ops xs rs ∧ l'.count = xs.length ∧
        ∀ i, content l' (get l' i) = .ok xs[i]?) := by
  obtain ⟨l, t, h1, h2, h3, h4, h5, h6, h7⟩ := from_data_rep hi data bi
  refine ⟨_, h1, fun hv => ?_⟩
  rw [h2] at hv ⊢
  obtain ⟨l', t', rs, xs, r1, r2, r3, r4, r5⟩ := run_ext ops l _ t h3 (by omega) (by omega) (by rw [h4, h5, h6]; exact hsz) hv
  refine ⟨_, rs, xs, r1, r2, r3.count, fun i => content_ext t' (get_content r3 ?_ i)⟩
  rw [r4, h5]
  exact mul_lt_of hsz (by omega)

/-- Two whole items, one byte left over; an item is added and one inserted in front. -/
example : ∃ l, new_from_data 2 [1, 2, 3, 4, 5] = .ok l ∧
    run (set_blockitems l 3) [.add [6, 7] (some fun _ => 0), .insert [8, 9] 0 none, .get 1, .get 3] =
      .ok (⟨2, 3, 4, 5, [8, 9, 1, 2, 3, 4, 6, 7, 0, 0]⟩, [.int 1, .int 1, .item (some [1, 2]), .item (some [6, 7])]) :=
  ⟨_, rfl, by decide⟩

/-- C174: without a block size, all calls that do not make the list longer behave so too. -/
theorem sblist_from_data_fixed (isz : Nat) (hi : 0 < isz) (data : List Byte) (hd : data.length < 2^64) (ops : List Op) (hs : ∀ op ∈ ops, Shrinks op)
    (hx : ∀ x p, Op.set x p ∈ ops → x.length = isz) :
    ∃ l l' rs xs, new_from_data isz data = .ok l ∧ run l ops = .ok (l', rs) ∧ Steps (items isz data) ops xs rs ∧ l'.count = xs.length ∧
      ∀ i, content l' (get l' i) = .ok xs[i]? := by
  have key : ∀ (ops : List Op) (l : SB) (ys : List (List Byte)) (t : List Byte), (∀ op ∈ ops, Shrinks op) →
      (∀ x p, Op.set x p ∈ ops → x.length = isz) → Rep l ys → l.itemsize = isz → l.count * isz < 2^64 →
      ∃ l' rs xs, run (ap l t) ops = .ok (ap l' t, rs) ∧ Steps ys ops xs rs ∧ Rep l' xs ∧ l'.itemsize = isz ∧ l'.count * isz < 2^64 := by
    intro ops
    induction ops with
    | nil => intro l ys t _ _ h1 h2 h3; exact ⟨l, [], ys, rfl, .nil, h1, h2, h3⟩
    | cons op ops ih =>
      intro l ys t hs hx h1 h2 h3
      have h3' : l.count * l.itemsize < 2^64 := by rw [h2]; exact h3
      have one : ∃ l1 r zs, step (ap l t) op = .ok (ap l1 t, r) ∧ Step ys op zs r ∧ Rep l1 zs ∧ l1.itemsize = l.itemsize ∧ l1.count ≤ l.count := by
        have hop := hs op (by simp)
        cases op with
        | set x pos =>
          have hxl : x.length = l.itemsize := by rw [h2]; exact hx x pos (by simp)
          by_cases hp : pos < ys.length
          · obtain ⟨l', a1, a2, a3, a4⟩ := (set_spec h1 h3' x hxl pos).1 hp
            exact ⟨l', _, _, by simp only [step, set_ext t a1]; rfl, .set hp, a2, a3, by rw [a2.count, h1.count]; simp⟩
          · have a1 := (set_spec h1 h3' x hxl pos).2 (by omega)
            exact ⟨l, _, _, by simp only [step, set_ext t a1]; rfl, .setOut (by omega), h1, rfl, by omega⟩
        | get i =>
          exact ⟨l, _, _, by
            simp only [step, show content (ap l t) (get (ap l t) i) = .ok ys[i]? from content_ext t (get_content h1 h3' i)]; rfl,
            .get, h1, rfl, by omega⟩
        | delete i =>
          obtain ⟨l', a1, a2, a3, a4, _⟩ := delete_spec h1 h3' i
          exact ⟨l', _, _, by simp only [step, delete_ext t a1]; rfl, .delete, a2, a3, by
            rw [a2.count, h1.count, List.length_eraseIdx]; split <;> omega⟩
        | pop =>
          obtain ⟨l', p, a1, a2, a3, a4, a5⟩ := pop_spec h1 h3'
          exact ⟨l', _, _, by simp only [step, pop_ext t a1, ok_bind, content_ext t a2]; rfl, .pop, a3, a4, by
            rw [a3.count, h1.count]; simp⟩
        | add x a => exact absurd hop (by simp [Shrinks])
        | addi x a => exact absurd hop (by simp [Shrinks])
        | insert x p a => exact absurd hop (by simp [Shrinks])
      obtain ⟨l1, r, zs, b1, b2, b3, b4, b5⟩ := one
      obtain ⟨l2, rs, xs, c1, c2, c3, c4, c5⟩ := ih l1 zs t (fun o ho => hs o (by simp [ho])) (fun x p ho => hx x p (by simp [ho])) b3
        (by rw [b4, h2]) (mul_lt_of h3 b5)
      exact ⟨l2, r :: rs, xs, by simp only [run, b1, ok_bind, c1]; rfl, .cons b2 c2, c3, c4, c5⟩
  obtain ⟨l, t, h1, h2, h3, h4, h5, h6, h7⟩ := from_data_rep hi data 0
  have hle : data.length / isz * isz ≤ data.length := Nat.div_mul_le_self _ _
  obtain ⟨l', rs, xs, c1, c2, c3, c4, c5⟩ := key ops l _ t hs hx h3 h5 (by rw [h6]; omega)
  rw [← h2] at c1
  exact ⟨_, _, rs, xs, h1, c1, c2, c3.count, fun i => content_ext t (get_content c3 (by rw [c4]; exact c5) i)⟩

example : ∃ ops : List Op, (∀ op ∈ ops, Shrinks op) ∧ ops.length = 4 :=
  ⟨[.get 0, .delete 1, .set [1, 2] 0, .pop], by simp [Shrinks], rfl⟩

/-- C175: if the memory is shorter than one item and no block size was set, the first attempt to add an item asks `realloc` for 0 bytes. Where
    that frees the block and returns NULL, the call reports failure, but the memory is gone while the list still points to it: the next
    attempt to add, and freeing the list, are undefined. -/
theorem sblist_from_short_data_dangles (ok : Nat → Bool) (m : Mem) (hm : Life.Fresh m) (isz p datalen : Nat) (hp : p ∈ m.live)
    (hd : datalen < isz) (m1 : Mem) (l : D) (h : dnew ok m isz p datalen = .ok (m1, some l)) :
    ∃ m2, dgrow true ok m1 l = .ok (m2, l, false) ∧ p ∉ m2.live ∧
      dgrow true ok m2 l = .error .badFree ∧ dfree m2 l = .error .badFree := by
  obtain ⟨h1, h2⟩ := dnew_spec h
  subst h1; subst h2
  have hne := (hm.le p hp).1
  have hlt := (hm.le p hp).2
  have h0 : datalen / isz = 0 := Nat.div_eq_of_lt hd
  have hin : p ∈ (m.next + 1) :: m.live := List.mem_cons_of_mem _ hp
  have hnd : ((m.next + 1) :: m.live).Nodup := List.nodup_cons.2 ⟨fun h => by have := (hm.le _ h).2; omega, hm.nodup⟩
  have hout : p ∉ ((m.next + 1) :: m.live).erase p := fun h => (hnd.mem_erase_iff.1 h).1 rfl
  refine ⟨⟨((m.next + 1) :: m.live).erase p, m.next + 2⟩, ?_, hout, ?_, ?_⟩
  · simp only [dgrow, drealloc, Life.free, h0, if_true, Nat.add_zero, Nat.zero_mul, szt, Nat.zero_mod, ne_eq]
    rw [if_pos ⟨by omega, trivial, trivial⟩, if_neg (by omega), if_pos hin]
    rfl
  · simp only [dgrow, drealloc, Life.free, h0, if_true, Nat.add_zero, Nat.zero_mul, szt, Nat.zero_mod, ne_eq]
    rw [if_pos ⟨by omega, trivial, trivial⟩, if_neg (by omega), if_neg hout]
    rfl
  · simp only [dfree, Life.free]
    rw [if_neg (by omega), if_neg hout]
    rfl

/-- An address space with one block of three bytes, items of four bytes. -/
example : ∃ m1 l, dnew (fun _ => true) ⟨[1], 1⟩ 4 1 3 = .ok (m1, some l) ∧ Life.Fresh ⟨[1], 1⟩ :=
  ⟨_, _, rfl, by simp, by simp⟩

/-- C175: `sblist_free` on a list whose memory did not come from the allocator (as is allowed for lists that are only read) is undefined. -/
theorem sblist_from_foreign_data_free (ok : Nat → Bool) (m : Mem) (isz p datalen : Nat) (hp : p ∉ m.live) (hp0 : p ≠ 0) (hpn : p ≠ m.next + 1)
    (m1 : Mem) (l : D) (h : dnew ok m isz p datalen = .ok (m1, some l)) :
    dfree m1 l = .error .badFree := by
  obtain ⟨h1, h2⟩ := dnew_spec h
  subst h1; subst h2
  simp only [dfree, Life.free]
  rw [if_neg hp0, if_neg (by simp only [List.mem_cons, not_or]; exact ⟨hpn, hp⟩)]
  rfl

/-- C175: with memory from the allocator it gives back the memory and the list object. -/
theorem sblist_from_data_free (ok : Nat → Bool) (m : Mem) (hm : Life.Fresh m) (isz p datalen : Nat) (hp : p ∈ m.live)
    (m1 : Mem) (l : D) (h : dnew ok m isz p datalen = .ok (m1, some l)) :
    ∃ m2, dfree m1 l = .ok m2 ∧ m2.live = m.live.erase p := by
  obtain ⟨h1, h2⟩ := dnew_spec h
  subst h1; subst h2
  have hne := (hm.le p hp).1
  have hlt := (hm.le p hp).2
  have hin : p ∈ (m.next + 1) :: m.live := List.mem_cons_of_mem _ hp
  refine ⟨⟨m.live.erase p, m.next + 1⟩, ?_, rfl⟩
  simp only [dfree, Life.free]
  rw [if_neg (by omega), if_pos hin, pure_eq_ok, ok_bindE]
  have e : ((m.next + 1) :: m.live).erase p = (m.next + 1) :: m.live.erase p := by
    rw [List.erase_cons_tail (by simp; omega)]
  simp only [e]
  rw [if_neg (by omega), if_pos List.mem_cons_self, List.erase_cons_head]
  rfl

end Ulz.Props

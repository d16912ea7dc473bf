import Verif.Proofs.Outside
/-! C222: places outside a list. -/
namespace Ulz.Props
open Ulz.Tglist Ulz.Tglist.Spec

/-- C222: reading is defined exactly for the places below the capacity, also behind the items. -/
theorem tglist_get_outside (isz : Nat) (l : TG) (xs : List (List Byte)) (hr : Rep isz l xs) (pos : Nat) (hb : (pos + 1) * isz < 2 ^ 64) :
    (∃ x, get isz l pos = .ok x ∧ x.length = isz) ↔ pos < l.capa := by
  have hl := hr.items_length
  have hi := hr.pos
  have hb' : pos * isz + isz < 2 ^ 64 := by rwa [Nat.succ_mul] at hb
  unfold Tglist.get rdN
  rw [szt_of_lt (by omega), hl]
  have hiff : pos * isz + isz ≤ l.capa * isz ↔ pos < l.capa := by
    rw [← Nat.succ_mul]
    exact ⟨fun h => Nat.le_of_mul_le_mul_right h hi, fun h => Nat.mul_le_mul_right isz h⟩
  rw [← hiff]
  constructor
  · rintro ⟨x, hx, _⟩
    apply Decidable.byContradiction
    intro h
    rw [if_neg h] at hx
    cases hx
  · intro h
    rw [if_pos h]
    refine ⟨_, rfl, ?_⟩
    rw [List.length_take, List.length_drop, hl]
    omega

/-- C222: so is writing; behind the items it is not seen in the list, but it can be read back. -/
theorem tglist_set_outside (isz : Nat) (l : TG) (xs : List (List Byte)) (hr : Rep isz l xs) (x : List Byte) (hx : x.length = isz) (pos : Nat)
    (hb : (pos + 1) * isz < 2 ^ 64) :
    ((∃ l', set isz l x pos = .ok (l', 1)) ↔ pos < l.capa) ∧
    (l.count ≤ pos → pos < l.capa → ∃ l', set isz l x pos = .ok (l', 1) ∧ Rep isz l' xs ∧ get isz l' pos = .ok x) := by
  have hl := hr.items_length
  have hi := hr.pos
  have hb' : pos * isz + isz < 2 ^ 64 := by rwa [Nat.succ_mul] at hb
  have hiff : pos * isz + isz ≤ l.capa * isz ↔ pos < l.capa := by
    rw [← Nat.succ_mul]
    exact ⟨fun h => Nat.le_of_mul_le_mul_right h hi, fun h => Nat.mul_le_mul_right isz h⟩
  have hrd : rdN x 0 isz = .ok x := by
    unfold rdN
    rw [if_pos (by omega), ← hx]
    simp
  have hset : set isz l x pos = if pos < l.capa then .ok ({ l with items := put l.items (pos * isz) x }, 1) else .error .oobWrite := by
    unfold Tglist.set wrN
    rw [hrd, ok_bind, szt_of_lt (by omega), hx, hl]
    by_cases h : pos < l.capa
    · rw [if_pos h, if_pos (hiff.2 h)]; rfl
    · rw [if_neg h, if_neg (fun e => h (hiff.1 e))]; rfl
  refine ⟨⟨fun ⟨l', h⟩ => ?_, fun h => ⟨_, by rw [hset, if_pos h]⟩⟩, fun h1 h2 => ⟨_, by rw [hset, if_pos h2], ?_, ?_⟩⟩
  · apply Decidable.byContradiction
    intro hn
    rw [hset, if_neg hn] at h
    cases h
  · obtain ⟨slack, e1, e2⟩ := hr.buf
    have hfl : xs.flatten.length = l.count * isz := by
      have := congrArg List.length e1
      rw [List.length_append, e2, hl, ← Nat.add_sub_cancel' hr.capa, Nat.add_sub_cancel_left, Nat.add_mul] at this
      omega
    have hle : l.count * isz ≤ pos * isz := Nat.mul_le_mul_right isz h1
    refine ⟨hi, hr.count, hr.item, hr.capa, (put l.items (pos * isz) x).drop (l.count * isz), ?_, ?_⟩
    · show put l.items (pos * isz) x = _
      have : (put l.items (pos * isz) x).take (l.count * isz) = xs.flatten := by
        unfold put
        rw [List.append_assoc, List.take_append_of_le_length (by rw [List.length_take, hl]; have := hiff.2 h2; omega), List.take_take, Nat.min_eq_left hle, e1,
          List.take_append_of_le_length (by omega), ← hfl, List.take_length]
      rw [← this, List.take_append_drop]
    · rw [List.length_drop, put_length (by rw [hx, hl]; exact hiff.2 h2), hl, Nat.sub_mul]
  · have hc := hiff.2 h2
    unfold Tglist.get rdN
    rw [szt_of_lt (by omega)]
    show (if pos * isz + isz ≤ (put l.items (pos * isz) x).length then _ else _) = _
    rw [if_pos (by rw [put_length (by rw [hx, hl]; exact hc), hl]; exact hc)]
    congr 1
    show ((put l.items (pos * isz) x).drop (pos * isz)).take isz = x
    unfold put
    have : (l.items.take (pos * isz)).length = pos * isz := by rw [List.length_take, hl]; omega
    rw [List.append_assoc, List.drop_append_of_le_length (by omega), List.drop_eq_nil_of_le (by omega), List.nil_append, ← hx, List.take_left]

/-- C222: deleting is defined exactly for the places of items. -/
theorem tglist_delete_outside (isz : Nat) (l : TG) (xs : List (List Byte)) (hr : Rep isz l xs) (hc : l.capa * isz < 2 ^ 64) (pos : Nat)
    (hb : (pos + 1) * isz < 2 ^ 64) : (∃ l', delete isz l pos = .ok l') ↔ pos < l.count := by
  have hl := hr.items_length
  have hi := hr.pos
  constructor
  · rintro ⟨l', h⟩
    apply Decidable.byContradiction
    intro hn
    have hw := wrap_size (count := l.count) (pos := pos + 1) hi (by omega) hb
    have he : memmove_impl isz l pos 1 = .error .oobRead := by
      unfold memmove_impl
      dsimp only
      rw [show Int.toNat (1 % 2^64) = 1 from by decide]
      have hle : l.capa * isz ≤ l.capa * isz + 0 := Nat.le_refl _
      have hb' : pos * isz + isz < 2 ^ 64 := by rwa [Nat.succ_mul] at hb
      have hs : szt (szt (pos * isz) + szt (isz * 1)) = (pos + 1) * isz := by
        rw [Nat.mul_one, szt_of_lt (n := isz) (by omega), szt_of_lt (n := pos * isz) (by omega), szt_of_lt (by omega), Nat.succ_mul]
      have hge : (pos + 1 - l.count) * isz ≤ (pos + 1) * isz := Nat.mul_le_mul_right isz (by omega)
      rw [hs, memmove_far (by rw [hl]; omega)]
      rfl
    unfold delete at h
    rw [he] at h
    cases h
  · intro h
    have hcnt : l.count * isz < 2 ^ 64 := Nat.lt_of_le_of_lt (Nat.mul_le_mul_right isz hr.capa) hc
    obtain ⟨l', h', _⟩ := delete_spec hr hcnt (i := pos) (by rw [← hr.count]; exact h)
    exact ⟨l', h'⟩

/-- C222: inserting behind the end is undefined, unless it fails for lack of memory, which leaves the list as it was. -/
theorem tglist_insert_outside (isz : Nat) (l : TG) (xs : List (List Byte)) (hr : Rep isz l xs) (hsz : (2 * l.count + 4) * isz < 2 ^ 64) (hc : l.capa * isz < 2 ^ 64)
    (a : Alloc) (x : List Byte) (pos : Nat) (hb : (pos + 1) * isz < 2 ^ 64) (hpos : l.count < pos) :
    insert isz a l x pos = if a = none ∧ l.count = l.capa then .ok (l, 0) else .error .oobRead := by
  have hi := hr.pos
  have hfar : ∀ l' : TG, l'.count = l.count → l'.items.length = l'.capa * isz → l'.capa * isz < 2 ^ 64 →
      memmove_impl isz l' (pos + 1) (-1) = .error .oobRead := by
    intro l' h1 h2 h3
    have hb' : pos * isz + isz < 2 ^ 64 := by rwa [Nat.succ_mul] at hb
    have hw := wrap_size (count := l.count) (pos := pos) hi hpos (by omega)
    unfold memmove_impl
    dsimp only
    rw [show Int.toNat (-1 % 2^64) = 2 ^ 64 - 1 from by decide]
    have hp : pos < 2 ^ 64 := Nat.lt_of_le_of_lt (Nat.le_mul_of_pos_right pos hi) (by omega)
    have e1 : szt (pos + 1 + (2 ^ 64 - 1)) = szt pos := by unfold szt; omega
    have e2 : szt (szt ((pos + 1) * isz) + szt (isz * (2 ^ 64 - 1))) = pos * isz := by
      rw [szt_of_lt hb, Nat.succ_mul]
      unfold szt
      omega
    have hge : (pos - l.count) * isz ≤ pos * isz := Nat.mul_le_mul_right isz (by omega)
    rw [e1, e2, h1, memmove_far (by rw [h2]; omega)]
    rfl
  by_cases hfull : l.count = l.capa
  · have hns : (if l.capa = 0 then 4 else szt (l.capa * 2)) * isz < 2 ^ 64 := by
      refine Nat.lt_of_le_of_lt (Nat.mul_le_mul_right isz ?_) hsz
      split
      · omega
      · have : szt (l.capa * 2) ≤ l.capa * 2 := Nat.mod_le _ _
        omega
    have hge : l.capa * isz ≤ (if l.capa = 0 then 4 else szt (l.capa * 2)) * isz := by
      refine Nat.mul_le_mul_right isz ?_
      split
      · omega
      · have : l.capa * 2 < 2 ^ 64 := by
          refine Nat.lt_of_le_of_lt (Nat.le_trans ?_ (Nat.le_mul_of_pos_right (2 * l.count + 4) hi)) hsz
          omega
        rw [szt_of_lt this]; omega
    cases a with
    | none =>
      have hg : grow_if_needed isz none l = (l, 0) := by
        unfold grow_if_needed
        rw [if_pos hfull]
        rfl
      unfold Tglist.insert
      rw [hg, if_pos (⟨rfl, hfull⟩ : (none : Alloc) = none ∧ l.count = l.capa)]
      rfl
    | some f =>
      obtain ⟨l', hg, h1, h2, h3⟩ : ∃ l', grow_if_needed isz (some f) l = (l', 1) ∧ l'.count = l.count ∧ l'.items.length = l'.capa * isz ∧ l'.capa * isz < 2 ^ 64 := by
        unfold grow_if_needed
        rw [if_pos hfull]
        generalize (if l.capa = 0 then 4 else szt (l.capa * 2)) = N at *
        refine ⟨⟨l.count, N, _⟩, rfl, rfl, ?_, hns⟩
        have hl := hr.items_length
        rw [szt_of_lt hns, List.length_append, List.length_take, List.length_map, List.length_range, hl]
        show min (N * isz) (l.capa * isz) + (N * isz - l.capa * isz) = N * isz
        omega
      unfold Tglist.insert
      rw [hg, if_neg (fun h : (some f : Alloc) = none ∧ l.count = l.capa => nomatch h.1)]
      show (if 1 = 0 then _ else _) = _
      rw [if_neg (by decide), hfar l' h1 h2 h3]
      rfl
  · have hg : grow_if_needed isz a l = (l, 1) := by unfold grow_if_needed; rw [if_neg hfull]
    unfold Tglist.insert
    rw [hg, if_neg (fun h : a = none ∧ l.count = l.capa => hfull h.2)]
    show (if 1 = 0 then _ else _) = _
    rw [if_neg (by decide), hfar l rfl hr.items_length hc]
    rfl

/-- C222: an item that was deleted from the end can still be read at its place. -/
theorem tglist_deleted_readable (isz : Nat) (l : TG) (xs : List (List Byte)) (x : List Byte) (hr : Rep isz l (xs ++ [x])) (hc : l.count * isz < 2 ^ 64) :
    ∃ l', delete isz l xs.length = .ok l' ∧ Rep isz l' xs ∧ get isz l' xs.length = .ok x := by
  have hcnt : l.count = xs.length + 1 := by rw [hr.count]; simp
  obtain ⟨l', h1, h2, h3⟩ := delete_spec hr hc (i := xs.length) (by simp)
  refine ⟨l', h1, ?_, ?_⟩
  · have : (xs ++ [x]).eraseIdx xs.length = xs := by
      rw [List.eraseIdx_append_of_length_le (Nat.le_refl _)]
      simp
    rwa [this] at h2
  · have hg := get_spec hr hc (i := xs.length) (by simp)
    rw [List.getElem_append_right (Nat.le_refl _)] at hg
    simp only [Nat.sub_self, List.getElem_cons_zero] at hg
    have hitems : l'.items = l.items := by
      unfold delete memmove_impl at h1
      dsimp only at h1
      rw [show Int.toNat (1 % 2^64) = 1 from by decide] at h1
      have hc64 : l.count < 2 ^ 64 := Nat.lt_of_le_of_lt (Nat.le_mul_of_pos_right _ hr.pos) hc
      have hn : szt (sztSub l.count (szt (xs.length + 1)) * isz) = 0 := by
        rw [← hcnt, szt_of_lt (n := l.count) hc64, sztSub_of_le (Nat.le_refl _) hc64, Nat.sub_self, Nat.zero_mul]; rfl
      rw [hn] at h1
      unfold memmove rdN at h1
      split at h1
      · rw [ok_bind] at h1
        simp only [List.take_zero] at h1
        unfold wrN at h1
        split at h1
        · rename_i hh
          rw [ok_bind] at h1
          have h1 := Except.ok.inj h1
          rw [← h1]
          show put l.items _ [] = l.items
          unfold put
          simp
        · cases h1
      · cases h1
    unfold Tglist.get
    rw [hitems]
    exact hg

/-! A list of two items with room for four. -/
example : Rep 2 ⟨2, 4, [1, 2, 3, 4, 5, 6, 7, 8]⟩ [[1, 2], [3, 4]] :=
  ⟨by decide, rfl, by decide, by decide, [5, 6, 7, 8], rfl, rfl⟩
example : get 2 ⟨2, 4, [1, 2, 3, 4, 5, 6, 7, 8]⟩ 3 = .ok [7, 8] ∧ delete 2 ⟨2, 4, [1, 2, 3, 4, 5, 6, 7, 8]⟩ 2 = .error .oobRead ∧
    insert 2 none ⟨2, 4, [1, 2, 3, 4, 5, 6, 7, 8]⟩ [9, 9] 3 = .error .oobRead ∧
    insert 2 none ⟨2, 2, [1, 2, 3, 4]⟩ [9, 9] 3 = .ok (⟨2, 2, [1, 2, 3, 4]⟩, 0) := by decide +kernel

end Ulz.Props

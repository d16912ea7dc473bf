import Verif.Spec.Held
import Verif.Proofs.Tlist
/-! Lemmas for C195: where the nodes of a tlist are while calls are made. -/
namespace Ulz.Held
open Ulz.Held.Spec Ulz.Tlist Ulz.Tlist.Spec Ulz.Tlist.Spec.Tr

theorem ins_get {α : Type} {A : List α} {idx : Nat} (n : α) {i : Nat} {a : α} (hi : idx ≤ A.length) (h : A[i]? = some a) :
    (A.take idx ++ n :: A.drop idx)[if idx ≤ i then i + 1 else i]? = some a := by
  have hl : (A.take idx).length = idx := by rw [List.length_take]; omega
  split
  · rename_i hle
    rw [List.getElem?_append_right (by omega), hl, show i + 1 - idx = (i - idx) + 1 by omega, List.getElem?_cons_succ, List.getElem?_drop,
      show idx + (i - idx) = i by omega, h]
  · rename_i hle
    rw [List.getElem?_append_left (by omega), List.getElem?_take_of_lt (by omega), h]

theorem del_get {α : Type} {A : List α} {idx i : Nat} {a : α} (hi : idx ≠ i) (h : A[i]? = some a) :
    (A.eraseIdx idx)[if idx < i then i - 1 else i]? = some a := by
  rw [List.getElem?_eraseIdx]
  split
  · rw [if_neg (by omega), show i - 1 + 1 = i by omega, h]
  · rw [if_pos (by omega), h]

theorem del_notin {α : Type} : ∀ {A : List α} {i : Nat} {a : α}, A.Nodup → A[i]? = some a → a ∉ A.eraseIdx i
  | [], _, _, _, h => by simp at h
  | x :: A, 0, a, hn, h => by
    rw [List.getElem?_cons_zero] at h
    cases h
    exact (List.nodup_cons.1 hn).1
  | x :: A, i + 1, a, hn, h => by
    rw [List.getElem?_cons_succ] at h
    rw [List.eraseIdx_cons_succ, List.mem_cons, not_or]
    refine ⟨?_, del_notin (List.nodup_cons.1 hn).2 h⟩
    rintro rfl
    exact (List.nodup_cons.1 hn).1 (List.mem_of_getElem? h)

/-- One call: what it does to the addresses of the nodes. -/
theorem tl_step {t : TL} {T : Tr} (h : WF t T) (hs : T.size + 1 < 2^32) (op : Op) (hop : OpOk t op) :
    ∃ t' r T', step t op = .ok (t', r) ∧ WF t' T' ∧ T'.size ≤ T.size + 1 ∧
      (∀ i a x, T.addrs[i]? = some a → T.items[i]? = some x →
        match move i op r with
        | some k => T'.addrs[k]? = some a ∧ T'.items[k]? = some x
        | none => a ∉ T'.addrs) ∧
      (∀ a, a ∉ T.addrs → mem op ≠ some a → a ∉ T'.addrs) := by
  have hl := items_length T
  have ha := addrs_length T
  have ins : ∀ idx x mem, x.length = t.itemsize → (∀ a, mem = some a → Fresh t a) → idx ≤ T.size →
      (∃ a t' T', mem = some a ∧ tlist_insert t idx x mem = .ok (t', 1) ∧ WF t' T' ∧
        T'.items = T.items.take idx ++ x :: T.items.drop idx ∧ T'.addrs = T.addrs.take idx ++ a :: T.addrs.drop idx) ∨
      (mem = none ∧ tlist_insert t idx x mem = .ok (t, 0)) := by
    intro idx x mem hx hm hi
    cases mem with
    | none =>
      right
      refine ⟨rfl, ?_⟩
      unfold tlist_insert
      rw [getsize_spec h]
      simp only [ok_bind]
      rw [if_neg (by omega)]
      simp [new_item, pure_eq_ok]
    | some a =>
      left
      obtain ⟨t', T', e1, e2, e3, e4, _, _, e5⟩ := insert_spec_tree h hs hi (hm a rfl) hx
      refine ⟨a, t', T', rfl, e1, e2, e4, ?_⟩
      have hsp := (splitT_append T idx 0).1
      have hsz := splitT_size1 T idx 0 (by omega) (by omega)
      rw [Nat.sub_zero, ← addrs_length] at hsz
      rw [e5, (mergeT_lists _ _).1, (mergeT_lists _ _).1, ← hsp, List.take_append, List.drop_append, hsz]
      simp [addrs, List.take_of_length_le (Nat.le_of_eq hsz), List.drop_eq_nil_of_le (Nat.le_of_eq hsz)]
  have done : ∀ (t' : TL) (T' : Tr) (idx a : Nat) (x : List Byte), WF t' T' → idx ≤ T.size →
      T'.items = T.items.take idx ++ x :: T.items.drop idx → T'.addrs = T.addrs.take idx ++ a :: T.addrs.drop idx →
      T'.size ≤ T.size + 1 ∧ (∀ b, b ∉ T.addrs → some a ≠ some b → b ∉ T'.addrs) ∧
      ∀ i b y, T.addrs[i]? = some b → T.items[i]? = some y →
        T'.addrs[if idx ≤ i then i + 1 else i]? = some b ∧ T'.items[if idx ≤ i then i + 1 else i]? = some y := by
    intro t' T' idx a x h' hi e1 e2
    refine ⟨?_, ?_, ?_⟩
    · rw [← addrs_length T', e2]; simp; omega
    · intro b hb hne hm
      rw [e2, List.mem_append, List.mem_cons] at hm
      rcases hm with hm | rfl | hm
      · exact hb (List.mem_of_mem_take hm)
      · exact hne rfl
      · exact hb (List.mem_of_mem_drop hm)
    · intro i b y h1 h2
      rw [e1, e2]
      exact ⟨ins_get a (by omega) h1, ins_get x (by omega) h2⟩
  cases op with
  | insert idx x m =>
    by_cases hi : idx ≤ T.size
    · rcases ins idx x m hop.1 hop.2 hi with ⟨a, t', T', rfl, e1, e2, e4, e5⟩ | ⟨rfl, e1⟩
      · obtain ⟨d1, d2, d3⟩ := done t' T' idx a x e2 hi e4 e5
        exact ⟨t', .int 1, T', by simp only [step, e1]; rfl, e2, d1, fun i b y h1 h2 => d3 i b y h1 h2, d2⟩
      · exact ⟨t, .int 0, T, by simp only [step, e1]; rfl, h, by omega, fun i b y h1 h2 => ⟨h1, h2⟩, fun a hn _ => hn⟩
    · refine ⟨t, .int 0, T, ?_, h, by omega, fun i b y h1 h2 => ⟨h1, h2⟩, fun a hn _ => hn⟩
      simp only [step, tlist_insert]
      rw [getsize_spec h]
      simp only [ok_bind]
      rw [if_pos (by omega)]
      rfl
  | append x m =>
    have ap : tlist_append t x m = tlist_insert t T.size x m := by
      unfold tlist_append; rw [getsize_spec h]; rfl
    rcases ins T.size x m hop.1 hop.2 (by omega) with ⟨a, t', T', rfl, e1, e2, e4, e5⟩ | ⟨rfl, e1⟩
    · obtain ⟨d1, d2, d3⟩ := done t' T' T.size a x e2 (Nat.le_refl _) e4 e5
      refine ⟨t', .int 1, T', by simp only [step, ap, e1]; rfl, e2, d1, fun i b y h1 h2 => ?_, d2⟩
      have hlt : i < T.addrs.length := (List.getElem?_eq_some_iff.1 h1).1
      have := d3 i b y h1 h2
      rw [if_neg (by omega)] at this
      exact this
    · exact ⟨t, .int 0, T, by simp only [step, ap, e1]; rfl, h, by omega, fun i b y h1 h2 => ⟨h1, h2⟩, fun a hn _ => hn⟩
  | delete idx =>
    by_cases hi : idx < T.size
    · obtain ⟨t', T', e1, e2, e3, e4, e5, e6, _, e7⟩ := delete_spec_tree h (by omega) hi
      have ea : T'.addrs = T.addrs.eraseIdx idx := by rw [e7, (removeT_lists T idx 0 (by omega) (by omega)).1, Nat.sub_zero]
      refine ⟨t', .int 1, T', by simp only [step, e1]; rfl, e2, by omega, ?_, ?_⟩
      · intro i b y h1 h2
        show match (if idx = i then none else some (if idx < i then i - 1 else i)) with
          | some k => T'.addrs[k]? = some b ∧ T'.items[k]? = some y
          | none => b ∉ T'.addrs
        by_cases he : idx = i
        · rw [if_pos he]
          subst he
          simp only
          rw [ea]
          exact del_notin h.nodup h1
        · rw [if_neg he]
          simp only
          rw [ea, e5]
          exact ⟨del_get he h1, del_get he h2⟩
      · intro a hn _ hm
        rw [ea] at hm
        exact hn (List.mem_of_mem_eraseIdx hm)
    · refine ⟨t, .int 0, T, ?_, h, by omega, fun i b y h1 h2 => ⟨h1, h2⟩, fun a hn _ => hn⟩
      simp only [step, tlist_delete_impl]
      rw [getsize_spec h]
      simp only [ok_bind]
      rw [if_pos (by omega)]
      rfl
  | get idx =>
    refine ⟨t, .item T.items[idx % 2^32]?, T, ?_, h, by omega, fun i b y h1 h2 => ⟨h1, h2⟩, fun a hn _ => hn⟩
    simp only [step]
    rw [get_spec h (by omega)]
    simp only [ok_bind]
    rw [content_spec h]
    rfl
  | getsize =>
    refine ⟨t, .int T.items.length, T, ?_, h, by omega, fun i b y h1 h2 => ⟨h1, h2⟩, fun a hn _ => hn⟩
    simp only [step, getsize_spec h, hl]
    rfl

theorem tl_content {t : TL} {T : Tr} (h : WF t T) {i a : Nat} {x : List Byte} (h1 : T.addrs[i]? = some a) (h2 : T.items[i]? = some x) :
    content t (dataPtr a) = some x := by
  have hd := has_data h.has
  have hm := List.mem_of_getElem? h1
  have : (T.addrs.map t.heap.data)[i]? = some (t.heap.data a) := by rw [List.getElem?_map, h1]; rfl
  rw [hd, h2] at this
  cases this
  unfold content dataPtr
  rw [if_pos ⟨by omega, by rw [Nat.add_sub_cancel]; exact (h.live a).2 hm⟩, Nat.add_sub_cancel]

theorem tl_content_none {t : TL} {T : Tr} (h : WF t T) {a : Nat} (h1 : a ∉ T.addrs) : content t (dataPtr a) = none := by
  unfold content dataPtr
  rw [if_neg]
  rintro ⟨_, w⟩
  rw [Nat.add_sub_cancel] at w
  exact h1 ((h.live a).1 w)

/-- A history after the item has gone. -/
theorem tl_gone (a : Nat) : ∀ (ops : List Op) (t : TL) (T : Tr), WF t T → T.size + ops.length < 2^32 → Valid t ops → a ∉ T.addrs →
    ∃ t' rs T', run t ops = .ok (t', rs) ∧ WF t' T' ∧ T'.size ≤ T.size + ops.length ∧ ((∀ op ∈ ops, mem op ≠ some a) → a ∉ T'.addrs)
  | [], t, T, h, hs, hv, hn => ⟨t, [], T, rfl, h, by simp, fun _ => hn⟩
  | op :: ops, t, T, h, hs, hv, hn => by
    rw [List.length_cons] at hs
    obtain ⟨t1, r, T1, e1, h1, h2, _, h4⟩ := tl_step h (by omega) op (hv [] op ops rfl t [] rfl)
    have hv1 : Valid t1 ops := by
      intro pre op' post he t' rs hr
      exact hv (op :: pre) op' post (by rw [he]; rfl) t' (r :: rs) (by simp only [run, e1, ok_bind, hr]; rfl)
    by_cases hm : mem op = some a
    · obtain ⟨t', rs, T', f1, _, f2, f3⟩ := Tlist.run_spec ops t1 T1 h1 (by omega) hv1
      refine ⟨t', r :: rs, T', by simp only [run, e1, ok_bind, f1]; rfl, f2, by rw [List.length_cons]; omega, fun hw => ?_⟩
      exact absurd hm (hw op (by simp))
    · obtain ⟨t', rs, T', f1, f2, f3, f4⟩ := tl_gone a ops t1 T1 h1 (by omega) hv1 (h4 a hn hm)
      exact ⟨t', r :: rs, T', by simp only [run, e1, ok_bind, f1]; rfl, f2, by rw [List.length_cons]; omega,
        fun hw => f4 fun o ho => hw o (by simp [ho])⟩

theorem tl_follow : ∀ (ops : List Op) (t : TL) (T : Tr) (i a : Nat) (x : List Byte), WF t T → T.size + ops.length < 2^32 → Valid t ops →
    T.addrs[i]? = some a → T.items[i]? = some x →
    ∃ t' rs T', run t ops = .ok (t', rs) ∧ WF t' T' ∧ T'.size ≤ T.size + ops.length ∧
      match follow i ops rs with
      | some k => T'.addrs[k]? = some a ∧ T'.items[k]? = some x
      | none => (∀ op ∈ ops, mem op ≠ some a) → a ∉ T'.addrs
  | [], t, T, i, a, x, h, hs, hv, h1, h2 => ⟨t, [], T, rfl, h, by simp, h1, h2⟩
  | op :: ops, t, T, i, a, x, h, hs, hv, ha, hx => by
    rw [List.length_cons] at hs
    obtain ⟨t1, r, T1, e1, h1, h2, h3, h4⟩ := tl_step h (by omega) op (hv [] op ops rfl t [] rfl)
    have hv1 : Valid t1 ops := by
      intro pre op' post he t' rs hr
      exact hv (op :: pre) op' post (by rw [he]; rfl) t' (r :: rs) (by simp only [run, e1, ok_bind, hr]; rfl)
    have h3 := h3 i a x ha hx
    cases hmv : move i op r with
    | none =>
      rw [hmv] at h3
      obtain ⟨t', rs, T', f1, f2, f3, f4⟩ := tl_gone a ops t1 T1 h1 (by omega) hv1 h3
      refine ⟨t', r :: rs, T', by simp only [run, e1, ok_bind, f1]; rfl, f2, by rw [List.length_cons]; omega, ?_⟩
      simp only [follow, hmv]
      exact fun hw => f4 fun o ho => hw o (by simp [ho])
    | some k =>
      rw [hmv] at h3
      obtain ⟨t', rs, T', f1, f2, f3, f4⟩ := tl_follow ops t1 T1 k a x h1 (by omega) hv1 h3.1 h3.2
      refine ⟨t', r :: rs, T', by simp only [run, e1, ok_bind, f1]; rfl, f2, by rw [List.length_cons]; omega, ?_⟩
      simp only [follow, hmv]
      cases hfo : follow k ops rs with
      | none =>
        rw [hfo] at f4
        exact fun hw => f4 fun o ho => hw o (by simp [ho])
      | some j =>
        rw [hfo] at f4
        exact f4

end Ulz.Held

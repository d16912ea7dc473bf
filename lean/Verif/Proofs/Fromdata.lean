import Verif.Model.Fromdata
import Verif.Spec.Fromdata
import Verif.Proofs.Sblist
set_option linter.unusedVariables false
namespace Ulz.Fromdata
open Ulz.Sblist Ulz.Sblist.Spec Ulz.Fromdata.Spec

/-- The list with bytes behind its buffer. -/
def ap (l : SB) (t : List Byte) : SB := { l with items := l.items ++ t }

theorem rdN_ext {b x : List Byte} {i n : Nat} (t : List Byte) (h : rdN b i n = .ok x) : rdN (b ++ t) i n = .ok x := by
  unfold rdN at h ⊢
  by_cases hc : i + n ≤ b.length
  · rw [if_pos hc] at h
    rw [if_pos (by rw [List.length_append]; omega)]
    rw [← h, List.drop_append_of_le_length (by omega), List.take_append_of_le_length (by rw [List.length_drop]; omega)]
  · rw [if_neg hc] at h; cases h

theorem wrN_ext {b x c : List Byte} {i : Nat} (t : List Byte) (h : wrN b i x = .ok c) : wrN (b ++ t) i x = .ok (c ++ t) := by
  unfold wrN at h ⊢
  by_cases hc : i + x.length ≤ b.length
  · rw [if_pos hc] at h
    rw [if_pos (by rw [List.length_append]; omega)]
    cases h
    unfold put
    rw [List.take_append_of_le_length (by omega), List.drop_append_of_le_length (by omega)]
    simp only [List.append_assoc]
  · rw [if_neg hc] at h; cases h

theorem memmove_ext {b c : List Byte} {d s n : Nat} (t : List Byte) (h : memmove b d s n = .ok c) :
    memmove (b ++ t) d s n = .ok (c ++ t) := by
  unfold memmove at h ⊢
  cases hr : rdN b s n with
  | error e => rw [hr] at h; cases h
  | ok x =>
    rw [hr] at h
    rw [rdN_ext t hr]
    exact wrN_ext t h

theorem set_ext {l l' : SB} {x : List Byte} {p r : Nat} (t : List Byte) (h : Sblist.set l x p = .ok (l', r)) :
    Sblist.set (ap l t) x p = .ok (ap l' t, r) := by
  unfold Sblist.set at h ⊢
  by_cases hc : p ≥ l.count
  · rw [if_pos hc] at h; cases h
    rw [if_pos (show p ≥ (ap l t).count from hc)]; rfl
  · rw [if_neg hc] at h
    rw [if_neg (show ¬ p ≥ (ap l t).count from hc)]
    have e1 : (ap l t).itemsize = l.itemsize := rfl
    have e2 : (ap l t).items = l.items ++ t := rfl
    rw [e1, e2]
    cases hr : rdN x 0 l.itemsize with
    | error e => rw [hr] at h; cases h
    | ok y =>
      rw [hr] at h
      simp only [ok_bind] at h ⊢
      cases hw : wrN l.items (szt (p * l.itemsize)) y with
      | error e => rw [hw] at h; cases h
      | ok c =>
        rw [hw] at h
        rw [wrN_ext t hw]
        simp only [ok_bind] at h ⊢
        cases h
        rfl

theorem content_ext {l : SB} {p : Option Nat} {r} (t : List Byte) (h : content l p = .ok r) : content (ap l t) p = .ok r := by
  cases p with
  | none => exact h
  | some o =>
    unfold content at h ⊢
    cases hr : rdN l.items o l.itemsize with
    | error e => simp only [hr] at h; cases h
    | ok x =>
      simp only [hr] at h
      simp only [show rdN (ap l t).items o (ap l t).itemsize = .ok x from rdN_ext t hr]
      exact h

theorem delete_ext {l l' : SB} {i : Nat} (t : List Byte) (h : delete l i = .ok l') : delete (ap l t) i = .ok (ap l' t) := by
  unfold delete at h ⊢
  by_cases hc : l.count ≠ 0 ∧ i < l.count
  · rw [if_pos hc] at h
    rw [if_pos (show (ap l t).count ≠ 0 ∧ i < (ap l t).count from hc)]
    cases hm : memmove l.items (szt (i * l.itemsize)) (szt ((i + 1) * l.itemsize)) (szt ((l.count - (i + 1)) * l.itemsize)) with
    | error e => rw [hm] at h; cases h
    | ok c =>
      rw [hm] at h
      rw [show memmove (ap l t).items (szt (i * (ap l t).itemsize)) (szt ((i + 1) * (ap l t).itemsize))
        (szt (((ap l t).count - (i + 1)) * (ap l t).itemsize)) = .ok (c ++ t) from memmove_ext t hm]
      simp only [ok_bind] at h ⊢
      cases h
      rfl
  · rw [if_neg hc] at h; cases h
    rw [if_neg (show ¬ ((ap l t).count ≠ 0 ∧ i < (ap l t).count) from hc)]; rfl

theorem pop_ext {l l' : SB} {p} (t : List Byte) (h : pop l = .ok (l', p)) : pop (ap l t) = .ok (ap l' t, p) := by
  unfold pop at h ⊢
  by_cases hc : l.count > 0
  · rw [if_pos hc] at h
    rw [if_pos (show (ap l t).count > 0 from hc)]
    cases hd : delete l (l.count - 1) with
    | error e => simp only [hd] at h; cases h
    | ok c =>
      simp only [hd, ok_bind] at h
      have := delete_ext t hd
      simp only [show delete (ap l t) ((ap l t).count - 1) = .ok (ap c t) from this, ok_bind]
      cases h
      rfl
  · rw [if_neg hc] at h; cases h
    rw [if_neg (show ¬ (ap l t).count > 0 from hc)]; rfl

/-- Growth either keeps the bytes behind the buffer or makes them part of it. -/
theorem grow_ext {l : SB} {xs} (h : Rep l xs) (hbi : 0 < l.blockitems) (t : List Byte) (ht : t.length < l.itemsize)
    (hb : (l.count + l.blockitems) * l.itemsize < 2 ^ 64) (a : Alloc) :
    ∃ a' t', (a' = none ↔ a = none) ∧ t'.length < l.itemsize ∧
      grow_if_needed a (ap l t) = (ap (grow_if_needed a' l).1 t', (grow_if_needed a' l).2) := by
  by_cases hc : l.count = l.capa
  · cases a with
    | none =>
      refine ⟨none, t, Iff.rfl, ht, ?_⟩
      unfold grow_if_needed
      rw [if_pos (show (ap l t).count = (ap l t).capa from hc), if_pos hc]
      rfl
    | some f =>
      refine ⟨some fun i => if h : i < t.length then t[i] else f (i - t.length), [], by simp, by simp; omega, ?_⟩
      unfold grow_if_needed
      rw [if_pos (show (ap l t).count = (ap l t).capa from hc), if_pos hc]
      show (match realloc (some f) (l.items ++ t) (szt ((l.capa + l.blockitems) * l.itemsize)) with
        | none => (ap l t, 0) | some u => ({ ap l t with capa := l.capa + l.blockitems, items := u }, 1)) = _
      rw [← hc, szt_of_lt hb]
      have hl : l.items.length = l.count * l.itemsize := by rw [h.items_length, hc]
      have hn : l.items.length + l.itemsize ≤ (l.count + l.blockitems) * l.itemsize := by
        rw [hl, Nat.add_mul]
        exact Nat.add_le_add_left (Nat.le_mul_of_pos_left _ hbi) _
      generalize (l.count + l.blockitems) * l.itemsize = n at hn
      have e : realloc (some f) (l.items ++ t) n =
          realloc (some fun i => if h : i < t.length then t[i] else f (i - t.length)) l.items n := by
        unfold realloc
        simp only [Option.map_some, Option.some.injEq]
        rw [List.take_of_length_le (by rw [List.length_append]; omega), List.take_of_length_le (by omega), List.append_assoc]
        congr 1
        apply List.ext_getElem
        · simp; omega
        · intro i h1 h2
          rw [List.getElem_append]
          by_cases hi : i < t.length
          · simp [hi]
          · simp [hi]
      rw [e]
      simp only [realloc, Option.map_some]
      simp [ap]
  · refine ⟨a, t, Iff.rfl, ht, ?_⟩
    unfold grow_if_needed
    rw [if_neg (show ¬ (ap l t).count = (ap l t).capa from hc), if_neg hc]

theorem ap_count (l : SB) (t : List Byte) : { ap l t with count := (ap l t).count + 1 } = ap { l with count := l.count + 1 } t := rfl

theorem add_ext {l : SB} {xs} (h : Rep l xs) (hbi : 0 < l.blockitems) (t : List Byte) (ht : t.length < l.itemsize)
    (hb : (l.count + l.blockitems) * l.itemsize < 2 ^ 64) (a : Alloc) (x : List Byte) (hx : x.length = l.itemsize) :
    (∃ l' t', add a (ap l t) x = .ok (ap l' t', 1) ∧ addi a (ap l t) x = .ok (ap l' t', some xs.length) ∧ Rep l' (xs ++ [x]) ∧
      l'.itemsize = l.itemsize ∧ l'.blockitems = l.blockitems ∧ t'.length < l.itemsize) ∨
    (a = none ∧ add a (ap l t) x = .ok (ap l t, 0) ∧ addi a (ap l t) x = .ok (ap l t, none)) := by
  obtain ⟨a', t', h1, h2, h3⟩ := grow_ext h hbi t ht hb a
  rcases grow_spec h hbi hb a' with ⟨l1, g1, g2, g3, g4, g5, g6⟩ | ⟨g1, g2⟩
  · left
    have hc : l1.count = l.count := by rw [g2.count, h.count]
    obtain ⟨l2, s1, s2, s3, s4⟩ := add_raw g2 (by omega) (by
      rw [hc, g4]; exact mul_lt_of hb (by omega)) x (by rw [hx, g4])
    refine ⟨l2, t', ?_, ?_, s2, by rw [s3, g4], by rw [s4, g5], h2⟩
    · unfold add
      rw [h3, g1]
      simp only [Nat.one_ne_zero, if_false]
      rw [ap_count]
      exact set_ext t' s1
    · unfold addi
      rw [h3, g1]
      simp only [Nat.one_ne_zero, if_false]
      rw [ap_count]
      have e : Sblist.set (ap { l1 with count := l1.count + 1 } t') x ((ap l1 t').count + 1 - 1) = .ok (ap l2 t', 1) := set_ext t' s1
      rw [e]
      simp only [ok_bind]
      have : (ap l2 t').count - 1 = xs.length := by
        show l2.count - 1 = _
        rw [s2.count]; simp
      rw [this]; rfl
  · right
    have ha := h1.1 g1
    subst ha
    have hg : grow_if_needed none (ap l t) = (ap l t, 0) := by
      subst g1
      unfold grow_if_needed at g2 ⊢
      by_cases hc : l.count = l.capa
      · rw [if_pos (show (ap l t).count = (ap l t).capa from hc)]; rfl
      · rw [if_neg hc] at g2; cases g2
    refine ⟨rfl, ?_, ?_⟩
    · unfold add; rw [hg]; rfl
    · unfold addi; rw [hg]; rfl

theorem insert_ext {l : SB} {xs} (h : Rep l xs) (hbi : 0 < l.blockitems) (t : List Byte) (ht : t.length < l.itemsize)
    (hb : (l.count + l.blockitems) * l.itemsize < 2 ^ 64) (a : Alloc) (x : List Byte) (hx : x.length = l.itemsize)
    (pos : Nat) (hp : pos ≤ xs.length) :
    (∃ l' t', Sblist.insert a (ap l t) x pos = .ok (ap l' t', 1) ∧ Rep l' (xs.take pos ++ x :: xs.drop pos) ∧
      l'.itemsize = l.itemsize ∧ l'.blockitems = l.blockitems ∧ t'.length < l.itemsize) ∨
    (a = none ∧ Sblist.insert a (ap l t) x pos = .ok (ap l t, 0)) := by
  obtain ⟨a', t', h1, h2, h3⟩ := grow_ext h hbi t ht hb a
  rcases insert_spec h hbi hb a' x hx pos hp with ⟨l', i1, i2, i3, i4⟩ | ⟨i1, i2⟩
  · left
    refine ⟨l', t', ?_, i2, i3, i4, h2⟩
    unfold Sblist.insert at i1 ⊢
    rw [h3]
    generalize grow_if_needed a' l = g at i1
    obtain ⟨l1, ok⟩ := g
    simp only at i1 ⊢
    by_cases hok : ok = 0
    · rw [if_pos hok] at i1; cases i1
    · rw [if_neg hok] at i1 ⊢
      cases hm : memmove l1.items (szt ((pos + 1) * l1.itemsize)) (szt (pos * l1.itemsize)) (szt (sztSub l1.count pos * l1.itemsize)) with
      | error e => rw [hm] at i1; cases i1
      | ok c =>
        rw [hm] at i1
        rw [show memmove (ap l1 t').items (szt ((pos + 1) * (ap l1 t').itemsize)) (szt (pos * (ap l1 t').itemsize))
          (szt (sztSub (ap l1 t').count pos * (ap l1 t').itemsize)) = .ok (c ++ t') from memmove_ext t' hm]
        simp only [ok_bind] at i1 ⊢
        exact set_ext t' i1
  · right
    have ha := h1.1 i1
    subst ha
    refine ⟨rfl, ?_⟩
    subst i1
    have hg : grow_if_needed none l = (l, 0) := by
      by_cases hc : l.count = l.capa
      · unfold grow_if_needed; rw [if_pos hc]; rfl
      · exfalso
        unfold Sblist.insert grow_if_needed at i2
        rw [if_neg hc] at i2
        simp only [Nat.one_ne_zero, if_false] at i2
        cases hm : memmove l.items (szt ((pos + 1) * l.itemsize)) (szt (pos * l.itemsize)) (szt (sztSub l.count pos * l.itemsize)) with
        | error e => rw [hm] at i2; cases i2
        | ok c =>
          rw [hm] at i2
          simp only [ok_bind] at i2
          have hc2 := h.count
          unfold Sblist.set at i2
          simp only at i2
          rw [if_neg (by omega)] at i2
          cases hr : rdN x 0 l.itemsize with
          | error e => rw [hr] at i2; cases i2
          | ok y =>
            rw [hr] at i2
            simp only [ok_bind] at i2
            cases hw : wrN c (szt (pos * l.itemsize)) y with
            | error e => rw [hw] at i2; cases i2
            | ok z => rw [hw] at i2; simp [pure_eq_ok] at i2
    have hg' : grow_if_needed none (ap l t) = (ap l t, 0) := by
      unfold grow_if_needed at hg ⊢
      by_cases hc : l.count = l.capa
      · rw [if_pos (show (ap l t).count = (ap l t).capa from hc)]; rfl
      · rw [if_neg hc] at hg; cases hg
    unfold Sblist.insert
    rw [hg']; rfl

theorem step_ext {l : SB} {xs} (h : Rep l xs) (hbi : 0 < l.blockitems) (t : List Byte) (ht : t.length < l.itemsize)
    (hb : (l.count + l.blockitems) * l.itemsize < 2 ^ 64) (op : Op) (hop : OpOk l.itemsize l.count op) :
    ∃ l' t' r ys, step (ap l t) op = .ok (ap l' t', r) ∧ Step xs op ys r ∧ Rep l' ys ∧ l'.itemsize = l.itemsize ∧
      l'.blockitems = l.blockitems ∧ l'.count ≤ l.count + 1 ∧ t'.length < l.itemsize := by
  have hb0 : l.count * l.itemsize < 2^64 := mul_lt_of hb (by omega)
  cases op with
  | add x a =>
    rcases add_ext h hbi t ht hb a x hop with ⟨l', t', h1, h2, h3, h4, h5, h6⟩ | ⟨h1, h2, h3⟩
    · exact ⟨l', t', _, _, by simp only [step, h1]; rfl, .add, h3, h4, h5, by rw [h3.count, h.count]; simp, h6⟩
    · subst h1
      exact ⟨l, t, _, _, by simp only [step, h2]; rfl, .addFail, h, rfl, rfl, by omega, ht⟩
  | addi x a =>
    rcases add_ext h hbi t ht hb a x hop with ⟨l', t', h1, h2, h3, h4, h5, h6⟩ | ⟨h1, h2, h3⟩
    · exact ⟨l', t', _, _, by simp only [step, h2]; rfl, .addi, h3, h4, h5, by rw [h3.count, h.count]; simp, h6⟩
    · subst h1
      exact ⟨l, t, _, _, by simp only [step, h3]; rfl, .addiFail, h, rfl, rfl, by omega, ht⟩
  | set x pos =>
    by_cases hp : pos < xs.length
    · obtain ⟨l', h1, h2, h3, h4⟩ := (set_spec h hb0 x hop pos).1 hp
      exact ⟨l', t, _, _, by simp only [step, set_ext t h1]; rfl, .set hp, h2, h3, h4, by rw [h2.count, h.count]; simp, ht⟩
    · have h1 := (set_spec h hb0 x hop pos).2 (by omega)
      exact ⟨l, t, _, _, by simp only [step, set_ext t h1]; rfl, .setOut (by omega), h, rfl, rfl, by omega, ht⟩
  | get i =>
    exact ⟨l, t, _, _, by
      simp only [step, show content (ap l t) (get (ap l t) i) = .ok xs[i]? from content_ext t (get_content h hb0 i)]; rfl,
      .get, h, rfl, rfl, by omega, ht⟩
  | insert x pos a =>
    have hp : pos ≤ xs.length := by rw [← h.count]; exact hop.2
    rcases insert_ext h hbi t ht hb a x hop.1 pos hp with ⟨l', t', h1, h3, h4, h5, h6⟩ | ⟨h1, h2⟩
    · exact ⟨l', t', _, _, by simp only [step, h1]; rfl, .insert hp, h3, h4, h5, by rw [h3.count, h.count]; simp; omega, h6⟩
    · subst h1
      exact ⟨l, t, _, _, by simp only [step, h2]; rfl, .insertFail hp, h, rfl, rfl, by omega, ht⟩
  | delete i =>
    obtain ⟨l', h1, h2, h3, h4, _⟩ := delete_spec h hb0 i
    exact ⟨l', t, _, _, by simp only [step, delete_ext t h1]; rfl, .delete, h2, h3, h4, by
      rw [h2.count, h.count, List.length_eraseIdx]; split <;> omega, ht⟩
  | pop =>
    obtain ⟨l', p, h1, h2, h3, h4, h5⟩ := pop_spec h hb0
    exact ⟨l', t, _, _, by simp only [step, pop_ext t h1, ok_bind, content_ext t h2]; rfl, .pop, h3, h4, h5, by
      rw [h3.count, h.count]; simp; omega, ht⟩

theorem run_ext : ∀ (ops : List Op) (l : SB) (xs : List (List Byte)) (t : List Byte), Rep l xs → 0 < l.blockitems → t.length < l.itemsize →
    (l.count + ops.length + l.blockitems) * l.itemsize < 2^64 → Valid (ap l t) ops →
    ∃ l' t' rs ys, run (ap l t) ops = .ok (ap l' t', rs) ∧ Steps xs ops ys rs ∧ Rep l' ys ∧ l'.itemsize = l.itemsize ∧
      l'.count ≤ l.count + ops.length
  | [], l, xs, t, h, hbi, ht, hb, hv => ⟨l, t, [], xs, rfl, .nil, h, rfl, by simp⟩
  | op :: ops, l, xs, t, h, hbi, ht, hb, hv => by
    simp only [List.length_cons] at hb
    obtain ⟨l1, t1, r, ys, h1, h2, h3, h4, h5, h6, h7⟩ := step_ext h hbi t ht (mul_lt_of hb (by omega)) op
      (hv [] op ops rfl (ap l t) [] rfl)
    obtain ⟨l2, t2, rs, zs, r1, r2, r3, r4, r5⟩ := run_ext ops l1 ys t1 h3 (by omega) (by omega)
      (by rw [h4, h5]; exact mul_lt_of hb (by omega)) (by
        intro pre op' post he l' rs hr
        have := hv (op :: pre) op' post (by rw [he]; rfl) l' (r :: rs) (by
          simp only [run, h1, ok_bind, hr]; rfl)
        rw [show (ap l1 t1).itemsize = (ap l t).itemsize from h4]; exact this)
    exact ⟨l2, t2, r :: rs, zs, by simp only [run, h1, ok_bind, r1]; rfl, .cons h2 r2, r3, by rw [r4, h4], by simp; omega⟩

theorem items_flatten (isz : Nat) (data : List Byte) : ∀ n, n * isz ≤ data.length →
    ((List.range n).map fun i => (data.drop (i * isz)).take isz).flatten = data.take (n * isz)
  | 0, _ => by simp
  | n + 1, h => by
    rw [Nat.add_mul, Nat.one_mul] at h
    rw [List.range_succ, List.map_append, List.flatten_append, items_flatten isz data n (by omega), Nat.add_mul, Nat.one_mul, List.take_add]
    simp

theorem from_data_rep {isz : Nat} (hi : 0 < isz) (data : List Byte) (bi : Nat) :
    ∃ l t, new_from_data isz data = .ok (⟨isz, 0, data.length / isz, data.length / isz, data⟩) ∧
      set_blockitems ⟨isz, 0, data.length / isz, data.length / isz, data⟩ bi = ap l t ∧ Rep l (items isz data) ∧
      l.blockitems = bi ∧ l.itemsize = isz ∧ l.count = data.length / isz ∧ t.length < isz := by
  have hle : data.length / isz * isz ≤ data.length := Nat.div_mul_le_self _ _
  have hmod : data.length - data.length / isz * isz < isz := by
    have := Nat.mod_lt data.length hi
    have := Nat.div_add_mod data.length isz
    rw [Nat.mul_comm] at this
    omega
  refine ⟨⟨isz, bi, data.length / isz, data.length / isz, data.take (data.length / isz * isz)⟩, data.drop (data.length / isz * isz),
    by simp [new_from_data, pure_eq_ok]; omega, by simp [set_blockitems, ap], ?_, rfl, rfl, rfl, by rw [List.length_drop]; exact hmod⟩
  refine ⟨hi, by simp [items], ?_, Nat.le_refl _, [], ?_, by simp⟩
  · intro x hx
    simp only [items, List.mem_map, List.mem_range] at hx
    obtain ⟨i, hi2, rfl⟩ := hx
    rw [List.length_take, List.length_drop]
    have : (i + 1) * isz ≤ data.length / isz * isz := Nat.mul_le_mul_right _ (by omega)
    rw [Nat.add_mul] at this
    show min isz _ = isz
    omega
  · rw [List.append_nil]
    exact (items_flatten isz data _ hle).symm

theorem dnew_spec {ok : Nat → Bool} {m m1 : Life.Mem} {isz p datalen : Nat} {l : D} (h : dnew ok m isz p datalen = .ok (m1, some l)) :
    m1 = ⟨(m.next + 1) :: m.live, m.next + 1⟩ ∧ l = ⟨m.next + 1, p, isz, 0, datalen / isz, datalen / isz⟩ := by
  unfold dnew Life.alloc at h
  by_cases ho : ok m.next = true
  · rw [if_pos ho] at h
    simp only [Nat.add_eq_zero_iff, Nat.one_ne_zero, and_false, if_false] at h
    by_cases hz : isz = 0
    · rw [if_pos hz] at h; cases h
    · rw [if_neg hz] at h
      cases h
      exact ⟨rfl, rfl⟩
  · rw [if_neg ho] at h
    simp [pure_eq_ok] at h

end Ulz.Fromdata

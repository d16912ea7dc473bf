import Verif.Spec.Sblist
import Verif.Proofs.Mem
set_option linter.unusedSimpArgs false
set_option linter.unusedVariables false
namespace Ulz.Sblist
open Spec

theorem mul_lt_of {a b k m : Nat} (h : b * k < m) (hab : a ≤ b) : a * k < m :=
  Nat.lt_of_le_of_lt (Nat.mul_le_mul_right k hab) h

theorem Spec.Rep.items_length {l : SB} {xs} (h : Rep l xs) : l.items.length = l.capa * l.itemsize := by
  obtain ⟨slack, h1, h2⟩ := h.buf
  rw [h1, List.length_append, flatten_length h.item, h2, ← h.count, ← Nat.add_mul]
  congr 1; have := h.capa; omega

/-- Splitting the buffer at item `pos`. -/
theorem flatten_split {xs : List (List Byte)} {k : Nat} (h : ∀ x ∈ xs, x.length = k) {pos : Nat}
    (hp : pos ≤ xs.length) :
    (xs.take pos).flatten.length = pos * k ∧ (xs.drop pos).flatten.length = (xs.length - pos) * k ∧
    xs.flatten = (xs.take pos).flatten ++ (xs.drop pos).flatten := by
  refine ⟨?_, ?_, ?_⟩
  · rw [flatten_length (fun x hx => h x (List.mem_of_mem_take hx))]; simp [Nat.min_eq_left hp]
  · rw [flatten_length (fun x hx => h x (List.mem_of_mem_drop hx))]; simp
  · rw [← List.flatten_append, List.take_append_drop]

theorem get_content {l : SB} {xs} (h : Rep l xs) (hb : l.count * l.itemsize < 2^64) (i : Nat) :
    content l (get l i) = .ok xs[i]? := by
  unfold get
  by_cases hi : i < l.count
  · rw [if_pos hi]
    have hi' : i < xs.length := by rw [← h.count]; exact hi
    rw [szt_of_lt (mul_lt_of hb (by omega))]
    obtain ⟨slack, h1, h2⟩ := h.buf
    obtain ⟨a1, a2, a3⟩ := flatten_split h.item (pos := i) (by omega)
    simp only [content]
    have e : xs.drop i = xs[i] :: xs.drop (i + 1) := List.drop_eq_getElem_cons hi'
    rw [h1, a3, e, List.flatten_cons, ← List.append_assoc, List.append_assoc (_ ++ xs[i])]
    rw [rdN_mid a1.symm (h.item _ (List.getElem_mem _)).symm]
    simp [hi']
  · rw [if_neg hi]
    have : xs.length ≤ i := by rw [← h.count]; omega
    simp [content, List.getElem?_eq_none this]

theorem deref_get {l : SB} {xs} (h : Rep l xs) (hb : l.count * l.itemsize < 2^64) {i : Nat} (hi : i < xs.length) :
    deref l (get l i) = .ok xs[i] := by
  have := get_content h hb i
  have hi' : i < l.count := by rw [h.count]; exact hi
  rw [show get l i = some (szt (i * l.itemsize)) from by simp [get, hi']] at this ⊢
  simp only [content] at this
  simp only [deref]
  cases hr : rdN l.items (szt (i * l.itemsize)) l.itemsize with
  | error e => rw [hr] at this; cases this
  | ok v =>
    rw [hr] at this
    simp [hi] at this
    rw [this]

theorem grow_spec {l : SB} {xs} (h : Rep l xs) (hbi : 0 < l.blockitems)
    (hb : (l.count + l.blockitems) * l.itemsize < 2^64) (a : Alloc) :
    (∃ l', grow_if_needed a l = (l', 1) ∧ Rep l' xs ∧ l'.count < l'.capa ∧ l'.itemsize = l.itemsize ∧
      l'.blockitems = l.blockitems ∧ (l'.capa = l.capa ∨ l'.capa = l.count + l.blockitems)) ∨
    (a = none ∧ grow_if_needed a l = (l, 0)) := by
  unfold grow_if_needed
  by_cases hc : l.count = l.capa
  · rw [if_pos hc, ← hc, szt_of_lt hb]
    cases a with
    | none => right; exact ⟨rfl, rfl⟩
    | some f =>
      left
      have hil := h.items_length
      obtain ⟨junk, h1, h2⟩ := realloc_some (f := f) (old := l.items) (n := (l.count + l.blockitems) * l.itemsize)
        (by rw [hil, ← hc]; exact Nat.mul_le_mul_right _ (by omega))
      rw [h1]
      refine ⟨_, rfl, ?_, by simp; omega, rfl, rfl, Or.inr rfl⟩
      obtain ⟨slack, b1, b2⟩ := h.buf
      refine ⟨h.isz, h.count, h.item, by simp, slack ++ junk, by simp [b1], ?_⟩
      simp only [List.length_append, h2, b2, hil, ← hc]
      rw [← Nat.sub_mul, ← Nat.add_mul]
      congr 1; omega
  · rw [if_neg hc]
    left
    exact ⟨l, rfl, h, by have := h.capa; omega, rfl, rfl, Or.inl rfl⟩

/-- Storing an item into a buffer that holds `xs` after making the slot at `xs.length` part of the list. -/
theorem add_raw {l : SB} {xs} (h : Rep l xs) (hc : l.count < l.capa) (hb : (l.count + 1) * l.itemsize < 2^64)
    (x : List Byte) (hx : x.length = l.itemsize) :
    ∃ l', set { l with count := l.count + 1 } x l.count = .ok (l', 1) ∧ Rep l' (xs ++ [x]) ∧
      l'.itemsize = l.itemsize ∧ l'.blockitems = l.blockitems := by
  obtain ⟨slack, b1, b2⟩ := h.buf
  have hs : l.itemsize ≤ slack.length := by
    rw [b2]; exact Nat.le_mul_of_pos_left _ (by omega)
  unfold set
  simp only
  rw [if_neg (by omega), szt_of_lt (mul_lt_of hb (by omega))]
  have hrd : rdN x 0 l.itemsize = .ok x := by
    have := rdN_mid (A := []) (M := x) (B := []) (i := 0) (n := l.itemsize) rfl hx.symm
    simpa using this
  rw [hrd]
  simp only [ok_bind]
  have e : l.items = xs.flatten ++ slack.take l.itemsize ++ slack.drop l.itemsize := by
    rw [List.append_assoc, List.take_append_drop, b1]
  rw [e, wrN_mid (by rw [flatten_length h.item, h.count]) (by simp; omega)]
  simp only [ok_bind]
  refine ⟨_, rfl, ⟨h.isz, by simp [h.count], ?_, hc, slack.drop l.itemsize, by simp, ?_⟩, rfl, rfl⟩
  · intro y hy
    rcases List.mem_append.1 hy with hy | hy
    · exact h.item y hy
    · simp at hy; subst hy; exact hx
  · simp only [List.length_drop, b2]
    rw [show l.capa - (l.count + 1) = l.capa - l.count - 1 by omega, Nat.sub_mul (_ - _), Nat.one_mul]

theorem add_spec {l : SB} {xs} (h : Rep l xs) (hbi : 0 < l.blockitems)
    (hb : (l.count + l.blockitems) * l.itemsize < 2^64) (a : Alloc) (x : List Byte) (hx : x.length = l.itemsize) :
    (∃ l', add a l x = .ok (l', 1) ∧ addi a l x = .ok (l', some xs.length) ∧ Rep l' (xs ++ [x]) ∧
      l'.itemsize = l.itemsize ∧ l'.blockitems = l.blockitems) ∨
    (a = none ∧ add a l x = .ok (l, 0) ∧ addi a l x = .ok (l, none)) := by
  unfold add addi
  rcases grow_spec h hbi hb a with ⟨l1, h1, h2, h3, h4, h5, _⟩ | ⟨h1, h2⟩
  · left
    rw [h1]
    have hb' : (l1.count + 1) * l1.itemsize < 2^64 := by
      rw [h4, h2.count, ← h.count]; exact mul_lt_of hb (by omega)
    obtain ⟨l2, s1, s2, s3, s4⟩ := add_raw h2 h3 hb' x (by rw [h4]; exact hx)
    refine ⟨l2, ?_, ?_, s2, by rw [s3, h4], by rw [s4, h5]⟩
    · simp only [Nat.one_ne_zero, if_false, Nat.add_sub_cancel]; exact s1
    · simp only [Nat.one_ne_zero, if_false, Nat.add_sub_cancel]
      rw [s1]
      simp only [ok_bind, pure_eq_ok, s2.count]
      simp
  · right
    rw [h2]
    exact ⟨h1, rfl, rfl⟩

theorem set_spec {l : SB} {xs} (h : Rep l xs) (hb : l.count * l.itemsize < 2^64) (x : List Byte)
    (hx : x.length = l.itemsize) (pos : Nat) :
    (pos < xs.length → ∃ l', set l x pos = .ok (l', 1) ∧ Rep l' (xs.set pos x) ∧ l'.itemsize = l.itemsize ∧
      l'.blockitems = l.blockitems) ∧
    (xs.length ≤ pos → set l x pos = .ok (l, 0)) := by
  constructor
  · intro hp
    have hp' : pos < l.count := by rw [h.count]; exact hp
    unfold set
    rw [if_neg (by omega), szt_of_lt (mul_lt_of hb (by omega))]
    have hrd : rdN x 0 l.itemsize = .ok x := by
      have := rdN_mid (A := []) (M := x) (B := []) (i := 0) (n := l.itemsize) rfl hx.symm
      simpa using this
    rw [hrd]
    simp only [ok_bind]
    obtain ⟨slack, b1, b2⟩ := h.buf
    obtain ⟨a1, a2, a3⟩ := flatten_split h.item (pos := pos) (by omega)
    have e : xs.drop pos = xs[pos] :: xs.drop (pos + 1) := List.drop_eq_getElem_cons hp
    have e2 : l.items = (xs.take pos).flatten ++ xs[pos] ++ ((xs.drop (pos + 1)).flatten ++ slack) := by
      rw [b1, a3, e, List.flatten_cons]; simp only [List.append_assoc]
    rw [e2, wrN_mid a1.symm (by rw [hx, h.item _ (List.getElem_mem _)])]
    simp only [ok_bind]
    refine ⟨_, rfl, ⟨h.isz, by simp [h.count], ?_, h.capa, slack, ?_, b2⟩, rfl, rfl⟩
    · intro y hy
      rcases List.mem_or_eq_of_mem_set hy with hy | hy
      · exact h.item y hy
      · subst hy; exact hx
    · rw [List.set_eq_take_append_cons_drop, if_pos hp]; simp
  · intro hp
    unfold set
    rw [if_pos (by rw [h.count]; exact hp)]
    rfl

theorem insert_spec {l : SB} {xs} (h : Rep l xs) (hbi : 0 < l.blockitems)
    (hb : (l.count + l.blockitems) * l.itemsize < 2^64) (a : Alloc) (x : List Byte) (hx : x.length = l.itemsize)
    (pos : Nat) (hp : pos ≤ xs.length) :
    (∃ l', insert a l x pos = .ok (l', 1) ∧ Rep l' (xs.take pos ++ x :: xs.drop pos) ∧
      l'.itemsize = l.itemsize ∧ l'.blockitems = l.blockitems) ∨
    (a = none ∧ insert a l x pos = .ok (l, 0)) := by
  unfold insert
  rcases grow_spec h hbi hb a with ⟨l1, h1, h2, h3, h4, h5, _⟩ | ⟨h1, h2⟩
  · left
    rw [h1]
    have hcnt : l1.count = l.count := by rw [h2.count, h.count]
    have hb' : (l1.count + 1) * l1.itemsize < 2^64 := by
      rw [h4, hcnt]; exact mul_lt_of hb (by omega)
    have hpc : pos ≤ l1.count := by rw [h2.count]; exact hp
    have hc64 : l1.count < 2^64 := by
      have : l1.count * 1 ≤ (l1.count + 1) * l1.itemsize := Nat.mul_le_mul (by omega) h2.isz
      omega
    obtain ⟨slack, b1, b2⟩ := h2.buf
    obtain ⟨a1, a2, a3⟩ := flatten_split h2.item (pos := pos) hp
    have hs : l1.itemsize ≤ slack.length := by
      rw [b2]; exact Nat.le_mul_of_pos_left _ (by omega)
    simp only [Nat.one_ne_zero, if_false]
    rw [szt_of_lt (mul_lt_of hb' (by omega)), szt_of_lt (mul_lt_of hb' (by omega)), sztSub_of_le hpc hc64,
      szt_of_lt (mul_lt_of hb' (by omega))]
    rw [b1, a3, memmove_up (k := l1.itemsize) a1.symm (by rw [a1, Nat.add_mul, Nat.one_mul])
      (by rw [a2, h2.count]) hs]
    simp only [ok_bind]
    unfold set
    simp only
    rw [if_neg (by omega), szt_of_lt (mul_lt_of hb' (by omega))]
    have hrd : rdN x 0 l1.itemsize = .ok x := by
      have := rdN_mid (A := []) (M := x) (B := []) (i := 0) (n := l1.itemsize) rfl (by rw [hx, h4])
      simpa using this
    rw [hrd]
    simp only [ok_bind]
    rw [List.append_assoc (_ ++ _), wrN_mid a1.symm (by simp [hx, h4]; omega)]
    simp only [ok_bind]
    refine ⟨_, rfl, ⟨h2.isz, ?_, ?_, h3, slack.drop l1.itemsize, by simp, ?_⟩, h4, h5⟩
    · simp [h2.count]; omega
    · intro y hy
      rcases List.mem_append.1 hy with hy | hy
      · exact h2.item y (List.mem_of_mem_take hy)
      · rcases List.mem_cons.1 hy with rfl | hy
        · simp [h4, hx]
        · exact h2.item y (List.mem_of_mem_drop hy)
    · simp only [List.length_drop, b2]
      rw [show l1.capa - (l1.count + 1) = l1.capa - l1.count - 1 by omega, Nat.sub_mul (_ - _), Nat.one_mul]
  · right
    rw [h2]
    exact ⟨h1, rfl⟩

theorem delete_spec {l : SB} {xs} (h : Rep l xs) (hb : l.count * l.itemsize < 2^64) (i : Nat) :
    ∃ l', delete l i = .ok l' ∧ Rep l' (xs.eraseIdx i) ∧ l'.itemsize = l.itemsize ∧
      l'.blockitems = l.blockitems ∧ (i + 1 = l.count → l'.items = l.items) := by
  unfold delete
  by_cases hi : i < l.count
  · rw [if_pos ⟨by omega, hi⟩]
    have hi' : i < xs.length := by rw [← h.count]; exact hi
    obtain ⟨slack, b1, b2⟩ := h.buf
    obtain ⟨a1, a2, a3⟩ := flatten_split h.item (pos := i) (by omega)
    obtain ⟨c1, c2, c3⟩ := flatten_split h.item (pos := i + 1) (by omega)
    have e : xs.drop i = xs[i] :: xs.drop (i + 1) := List.drop_eq_getElem_cons hi'
    have hm := h.item _ (List.getElem_mem hi')
    rw [szt_of_lt (mul_lt_of hb (by omega)), szt_of_lt (mul_lt_of hb (by omega)), szt_of_lt (mul_lt_of hb (by omega))]
    have e2 : l.items = (xs.take i).flatten ++ xs[i] ++ (xs.drop (i + 1)).flatten ++ slack := by
      rw [b1, a3, e, List.flatten_cons]; simp only [List.append_assoc]
    rw [e2, memmove_down (by rw [a1, hm, Nat.add_mul, Nat.one_mul]) a1.symm (by rw [c2, h.count])]
    simp only [ok_bind, pure_eq_ok]
    refine ⟨_, rfl, ⟨h.isz, ?_, ?_, by simp; have := h.capa; omega,
      (xs[i] ++ (xs.drop (i + 1)).flatten ++ slack).drop (xs.drop (i + 1)).flatten.length, ?_, ?_⟩, rfl, rfl, ?_⟩
    · simp [List.length_eraseIdx, hi', h.count]
    · intro y hy; exact h.item y (List.mem_of_mem_eraseIdx hy)
    · simp only [List.eraseIdx_eq_take_drop_succ, List.flatten_append]
    · simp only [List.length_drop, List.length_append, hm, b2]
      rw [show l.itemsize + (xs.drop (i + 1)).flatten.length + (l.capa - l.count) * l.itemsize -
        (xs.drop (i + 1)).flatten.length = (l.capa - l.count) * l.itemsize + l.itemsize by omega]
      rw [← Nat.succ_mul]
      congr 1; have := h.capa; omega
    · intro hlast
      have : xs.drop (i + 1) = [] := List.drop_eq_nil_of_le (by rw [← h.count]; omega)
      simp [this]
  · rw [if_neg (by omega)]
    refine ⟨l, rfl, ?_, rfl, rfl, fun _ => rfl⟩
    rw [List.eraseIdx_of_length_le (by rw [← h.count]; omega)]
    exact h

theorem pop_spec {l : SB} {xs} (h : Rep l xs) (hb : l.count * l.itemsize < 2^64) :
    ∃ l' p, pop l = .ok (l', p) ∧ content l' p = .ok xs.getLast? ∧ Rep l' xs.dropLast ∧
      l'.itemsize = l.itemsize ∧ l'.blockitems = l.blockitems := by
  unfold pop
  by_cases hc : l.count > 0
  · rw [if_pos hc]
    obtain ⟨l', h1, h2, h3, h4, h5⟩ := delete_spec h hb (l.count - 1)
    rw [h1]
    refine ⟨l', get l (l.count - 1), rfl, ?_, ?_, h3, h4⟩
    · have := get_content h hb (l.count - 1)
      have e : content l' (get l (l.count - 1)) = content l (get l (l.count - 1)) := by
        unfold content; rw [h5 (by omega), h3]
      rw [e, this, h.count, List.getLast?_eq_getElem?]
    · rw [h.count, List.eraseIdx_eq_take_drop_succ] at h2
      rw [List.drop_eq_nil_of_le (by have := h.count; omega), List.append_nil] at h2
      rwa [List.dropLast_eq_take]
  · rw [if_neg hc]
    have : xs = [] := List.eq_nil_of_length_eq_zero (by have := h.count; omega)
    subst this
    exact ⟨l, none, rfl, rfl, h, rfl, rfl⟩

theorem step_spec {l : SB} {xs} (h : Rep l xs) (hbi : 0 < l.blockitems)
    (hb : (l.count + l.blockitems) * l.itemsize < 2^64) (op : Op) (hop : OpOk l.itemsize l.count op) :
    ∃ l' r ys, step l op = .ok (l', r) ∧ Step xs op ys r ∧ Rep l' ys ∧ l'.itemsize = l.itemsize ∧
      l'.blockitems = l.blockitems ∧ l'.count ≤ l.count + 1 := by
  have hb0 : l.count * l.itemsize < 2^64 := mul_lt_of hb (by omega)
  cases op with
  | add x a =>
    rcases add_spec h hbi hb a x hop with ⟨l', h1, h2, h3, h4, h5⟩ | ⟨h1, h2, h3⟩
    · exact ⟨l', _, _, by simp only [step, h1]; rfl, .add, h3, h4, h5, by rw [h3.count, h.count]; simp⟩
    · subst h1
      exact ⟨l, _, _, by simp only [step, h2]; rfl, .addFail, h, rfl, rfl, by omega⟩
  | addi x a =>
    rcases add_spec h hbi hb a x hop with ⟨l', h1, h2, h3, h4, h5⟩ | ⟨h1, h2, h3⟩
    · exact ⟨l', _, _, by simp only [step, h2]; rfl, .addi, h3, h4, h5, by rw [h3.count, h.count]; simp⟩
    · subst h1
      exact ⟨l, _, _, by simp only [step, h3]; rfl, .addiFail, h, rfl, rfl, by omega⟩
  | set x pos =>
    by_cases hp : pos < xs.length
    · obtain ⟨l', h1, h2, h3, h4⟩ := (set_spec h hb0 x hop pos).1 hp
      exact ⟨l', _, _, by simp only [step, h1]; rfl, .set hp, h2, h3, h4, by rw [h2.count, h.count]; simp⟩
    · have h1 := (set_spec h hb0 x hop pos).2 (by omega)
      exact ⟨l, _, _, by simp only [step, h1]; rfl, .setOut (by omega), h, rfl, rfl, by omega⟩
  | get i =>
    exact ⟨l, _, _, by simp only [step, get_content h hb0]; rfl, .get, h, rfl, rfl, by omega⟩
  | insert x pos a =>
    have hp : pos ≤ xs.length := by rw [← h.count]; exact hop.2
    rcases insert_spec h hbi hb a x hop.1 pos hp with ⟨l', h1, h3, h4, h5⟩ | ⟨h1, h2⟩
    · exact ⟨l', _, _, by simp only [step, h1]; rfl, .insert hp, h3, h4, h5, by rw [h3.count, h.count]; simp; omega⟩
    · subst h1
      exact ⟨l, _, _, by simp only [step, h2]; rfl, .insertFail hp, h, rfl, rfl, by omega⟩
  | delete i =>
    obtain ⟨l', h1, h2, h3, h4, _⟩ := delete_spec h hb0 i
    exact ⟨l', _, _, by simp only [step, h1]; rfl, .delete, h2, h3, h4, by
      rw [h2.count, h.count, List.length_eraseIdx]; split <;> omega⟩
  | pop =>
    obtain ⟨l', p, h1, h2, h3, h4, h5⟩ := pop_spec h hb0
    exact ⟨l', _, _, by simp only [step, h1, ok_bind, h2]; rfl, .pop, h3, h4, h5, by
      rw [h3.count, h.count]; simp; omega⟩

theorem run_spec : ∀ (ops : List Op) (l : SB) (xs : List (List Byte)), Rep l xs → 0 < l.blockitems →
    (l.count + ops.length + l.blockitems) * l.itemsize < 2^64 → Valid l ops →
    ∃ l' rs ys, run l ops = .ok (l', rs) ∧ Steps xs ops ys rs ∧ Rep l' ys ∧ l'.itemsize = l.itemsize ∧
      l'.count ≤ l.count + ops.length
  | [], l, xs, h, hbi, hb, hv => ⟨l, [], xs, rfl, .nil, h, rfl, by simp⟩
  | op :: ops, l, xs, h, hbi, hb, hv => by
    simp only [List.length_cons] at hb
    obtain ⟨l1, r, ys, h1, h2, h3, h4, h5, h6⟩ := step_spec h hbi (mul_lt_of hb (by omega)) op
      (hv [] op ops rfl l [] rfl)
    obtain ⟨l2, rs, zs, r1, r2, r3, r4, r5⟩ := run_spec ops l1 ys h3 (by omega)
      (by rw [h4, h5]; exact mul_lt_of hb (by omega)) (by
        intro pre op' post he l' rs hr
        have := hv (op :: pre) op' post (by rw [he]; rfl) l' (r :: rs) (by
          simp only [run, h1, ok_bind, hr]; rfl)
        rwa [h4])
    exact ⟨l2, r :: rs, zs, by simp only [run, h1, ok_bind, r1]; rfl, .cons h2 r2, r3, by rw [r4, h4], by simp; omega⟩

theorem init_rep {isz bi : Nat} (h1 : 0 < isz) (h2 : 0 < bi) :
    ∃ l, init isz bi = .ok l ∧ Rep l [] ∧ l.blockitems = bi ∧ l.itemsize = isz ∧ l.count = 0 := by
  refine ⟨⟨isz, bi, 0, 0, []⟩, by simp [init]; omega, ⟨h1, rfl, by simp, by simp, [], rfl, by simp⟩, rfl, rfl, rfl⟩

/-! ### Searching -/

theorem bsearchLoop_eq (l : SB) (item : List Byte) (compar : List Byte → List Byte → Int) (base nel : Nat) :
    bsearchLoop l item compar base nel =
      if nel > 0 then (do
        let p ← deref l (get l (base + nel / 2))
        if compar item p < 0 then bsearchLoop l item compar base (nel / 2)
        else if compar item p > 0 then bsearchLoop l item compar (base + nel / 2 + 1) (nel - (nel / 2 + 1))
        else pure (some (base + nel / 2)))
      else pure none := by
  rw [bsearchLoop.eq_def]; rfl

theorem sorted_le {cmp : List Byte → List Byte → Int} (hc : TotalPreorder cmp) {xs : List (List Byte)}
    (hs : Sorted cmp xs) {i j : Nat} (hj : j < xs.length) (hij : i ≤ j) : cmp (xs[i]'(by omega)) xs[j] ≤ 0 := by
  rcases Nat.lt_or_eq_of_le hij with h | h
  · exact List.pairwise_iff_getElem.1 hs i j (by omega) hj h
  · subst h; rw [hc.refl]; exact Int.le_refl _

theorem Spec.TotalPreorder.le_of_pos {cmp} (hc : TotalPreorder cmp) {a b : List Byte} (h : ¬ cmp a b < 0) : cmp b a ≤ 0 := by
  have := hc.flip a b
  omega

theorem bsearchLoop_spec {l : SB} {xs} (h : Rep l xs) (hb : l.count * l.itemsize < 2^64) (item : List Byte)
    (cmp : List Byte → List Byte → Int) : ∀ nel base, base + nel ≤ xs.length →
    ∃ r, bsearchLoop l item cmp base nel = .ok r ∧ (∀ i, r = some i → ∃ hi : i < xs.length, cmp item xs[i] = 0) ∧
      (TotalPreorder cmp → Sorted cmp xs → r = none →
        ∀ i (hi : i < xs.length), base ≤ i → i < base + nel → cmp item xs[i] ≠ 0) := by
  intro nel
  induction nel using Nat.strongRecOn with
  | _ nel ih =>
    intro base hle
    rw [bsearchLoop_eq]
    by_cases h0 : nel > 0
    · rw [if_pos h0]
      have hx : base + nel / 2 < xs.length := by omega
      rw [deref_get h hb hx]
      simp only [ok_bind]
      by_cases h1 : cmp item xs[base + nel / 2] < 0
      · rw [if_pos h1]
        obtain ⟨r, r1, r2, r3⟩ := ih (nel / 2) (by omega) base (by omega)
        refine ⟨r, r1, r2, ?_⟩
        intro hc hs hr i hi hib hin
        by_cases hlt : i < base + nel / 2
        · exact r3 hc hs hr i hi hib hlt
        · intro he
          have := hc.trans _ _ _ (sorted_le hc hs hi (Nat.le_of_not_lt hlt)) (hc.le_of_pos (a := item) (b := xs[i]) (by omega))
          have := hc.flip item xs[base + nel / 2]
          omega
      · rw [if_neg h1]
        by_cases h2 : cmp item xs[base + nel / 2] > 0
        · rw [if_pos h2]
          obtain ⟨r, r1, r2, r3⟩ := ih (nel - (nel / 2 + 1)) (by omega) (base + nel / 2 + 1) (by omega)
          refine ⟨r, r1, r2, ?_⟩
          intro hc hs hr i hi hib hin
          by_cases hlt : base + nel / 2 < i
          · exact r3 hc hs hr i hi (by omega) (by omega)
          · intro he
            have := hc.trans _ _ _ (show cmp item xs[i] ≤ 0 by omega) (sorted_le hc hs hx (Nat.le_of_not_lt hlt))
            omega
        · rw [if_neg h2]
          refine ⟨_, rfl, ?_, ?_⟩
          · intro i hi
            cases hi
            exact ⟨hx, by omega⟩
          · intro _ _ hr; cases hr
    · rw [if_neg h0]
      refine ⟨none, rfl, by simp, ?_⟩
      intro _ _ _ i hi h1 h2; omega

theorem sortedPos_spec {l : SB} {xs} (h : Rep l xs) (hb : l.count * l.itemsize < 2^64) (o : List Byte)
    (cmp : List Byte → List Byte → Int) : ∀ fuel hi lo, hi ≤ lo → lo < xs.length → lo - hi < fuel →
    ∃ p, sortedPos l o cmp fuel hi lo = .ok p ∧ p ≤ xs.length ∧
      (TotalPreorder cmp → Sorted cmp xs →
        (∀ i (hi' : i < xs.length), i < hi → cmp xs[i] o ≤ 0) →
        (∀ i (hi' : i < xs.length), lo < i → cmp o xs[i] ≤ 0) →
        (∀ i (hi' : i < xs.length), i < p → cmp xs[i] o ≤ 0) ∧
        (∀ i (hi' : i < xs.length), p ≤ i → cmp o xs[i] ≤ 0)) := by
  intro fuel
  induction fuel with
  | zero => intro hi lo _ _ h3; omega
  | succ fuel ih =>
    intro hi lo hle hlt hf
    have hc : hi + (lo - hi) / 2 < xs.length := by omega
    unfold sortedPos
    dsimp only
    rw [deref_get h hb hc]
    simp only [ok_bind]
    by_cases heq : hi = lo
    · rw [if_pos heq]
      subst heq
      simp only [Nat.sub_self, Nat.zero_div, Nat.add_zero]
      by_cases hr : cmp o xs[hi] > 0
      · rw [if_pos hr]
        refine ⟨_, rfl, by omega, ?_⟩
        intro ht hs h1 h2
        refine ⟨?_, ?_⟩
        · intro i hi' hip
          by_cases he : i = hi
          · subst he; have := ht.flip xs[i] o; omega
          · exact h1 i hi' (by omega)
        · intro i hi' hip; exact h2 i hi' (by omega)
      · rw [if_neg hr]
        refine ⟨_, rfl, by omega, ?_⟩
        intro ht hs h1 h2
        refine ⟨fun i hi' hip => h1 i hi' hip, ?_⟩
        intro i hi' hip
        by_cases he : i = hi
        · subst he; omega
        · exact h2 i hi' (by omega)
    · rw [if_neg heq]
      generalize hcdef : hi + (lo - hi) / 2 = c at hc
      by_cases hr : cmp o xs[c] < 0
      · rw [if_pos hr]
        simp only
        have hlo : (if c ≠ 0 then c - 1 else 0) = c - 1 := by split <;> omega
        rw [hlo]
        have hhi : (if hi > c - 1 then c - 1 else hi) = min hi (c - 1) := by split <;> omega
        rw [hhi]
        obtain ⟨p, p1, p2, p3⟩ := ih (min hi (c - 1)) (c - 1) (by omega) (by omega) (by omega)
        refine ⟨p, p1, p2, ?_⟩
        intro ht hs h1 h2
        refine p3 ht hs (fun i hi' hi2 => h1 i hi' (by omega)) ?_
        intro i hi' hi2
        exact ht.trans _ _ _ (by omega) (sorted_le ht hs hi' (show c ≤ i by omega))
      · rw [if_neg hr]
        by_cases hr2 : cmp o xs[c] > 0
        · rw [if_pos hr2]
          simp only
          have hhi : (if c + 1 > lo then lo else c + 1) = c + 1 := by rw [if_neg (by omega)]
          rw [hhi]
          obtain ⟨p, p1, p2, p3⟩ := ih (c + 1) lo (by omega) (by omega) (by omega)
          refine ⟨p, p1, p2, ?_⟩
          intro ht hs h1 h2
          refine p3 ht hs ?_ h2
          intro i hi' hi2
          have := ht.flip xs[c] o
          exact ht.trans _ _ _ (sorted_le ht hs hc (show i ≤ c by omega)) (by omega)
        · rw [if_neg hr2]
          simp only [gt_iff_lt, Nat.lt_irrefl, if_false]
          obtain ⟨p, p1, p2, p3⟩ := ih c c (by omega) (by omega) (by omega)
          refine ⟨p, p1, p2, ?_⟩
          intro ht hs h1 h2
          refine p3 ht hs ?_ ?_
          · intro i hi' hi2
            exact ht.trans _ _ _ (sorted_le ht hs hc (show i ≤ c by omega)) (ht.le_of_pos hr)
          · intro i hi' hi2
            exact ht.trans _ _ _ (by omega) (sorted_le ht hs hi' (show c ≤ i by omega))

theorem sorted_insert {cmp : List Byte → List Byte → Int} {xs : List (List Byte)} (hs : Sorted cmp xs)
    {o : List Byte} {p : Nat} (h1 : ∀ i (hi' : i < xs.length), i < p → cmp xs[i] o ≤ 0)
    (h2 : ∀ i (hi' : i < xs.length), p ≤ i → cmp o xs[i] ≤ 0) : Sorted cmp (xs.take p ++ o :: xs.drop p) := by
  have hs' : List.Pairwise (fun a b => cmp a b ≤ 0) (xs.take p ++ xs.drop p) := by
    rw [List.take_append_drop]; exact hs
  rw [List.pairwise_append] at hs'
  unfold Sorted
  rw [List.pairwise_append]
  refine ⟨hs'.1, List.pairwise_cons.2 ⟨?_, hs'.2.1⟩, ?_⟩
  · intro a ha
    obtain ⟨i, hi, rfl⟩ := List.mem_iff_getElem.1 ha
    simp only [List.length_drop] at hi
    rw [List.getElem_drop]
    exact h2 _ (by omega) (by omega)
  · intro a ha b hb
    obtain ⟨i, hi, rfl⟩ := List.mem_iff_getElem.1 ha
    simp only [List.length_take] at hi
    rcases List.mem_cons.1 hb with rfl | hb
    · rw [List.getElem_take]
      exact h1 _ (by omega) (by omega)
    · exact hs'.2.2 _ (List.getElem_mem _) _ hb

/-- Likewise for adding. -/
theorem add_fail {a : Alloc} {l l' : SB} {x : List Byte} (h : add a l x = .ok (l', 0)) : l.count = l.capa := by
  apply Decidable.byContradiction
  intro hc
  unfold add grow_if_needed at h
  rw [if_neg hc] at h
  simp only [Nat.one_ne_zero, if_false] at h
  unfold set at h
  simp only at h
  rw [if_neg (by omega)] at h
  revert h
  cases rdN x 0 l.itemsize with
  | error e => intro h; cases h
  | ok z =>
    rw [ok_bind]
    cases wrN l.items (szt ((l.count + 1 - 1) * l.itemsize)) z with
    | error e => intro h; cases h
    | ok y => intro h; cases h

/-- An insertion that reports failure found no spare capacity. -/
theorem insert_fail {a : Alloc} {l l' : SB} {x : List Byte} {pos : Nat} (h : insert a l x pos = .ok (l', 0)) (hp : pos ≤ l.count) :
    l.count = l.capa := by
  apply Decidable.byContradiction
  intro hc
  unfold insert grow_if_needed at h
  rw [if_neg hc] at h
  simp only [Nat.one_ne_zero, if_false] at h
  cases hm : memmove l.items (szt ((pos + 1) * l.itemsize)) (szt (pos * l.itemsize))
    (szt (sztSub l.count pos * l.itemsize)) with
  | error e => rw [hm] at h; cases h
  | ok v =>
    rw [hm] at h
    simp only [ok_bind] at h
    unfold set at h
    simp only at h
    rw [if_neg (by omega)] at h
    cases hm2 : rdN x 0 l.itemsize with
    | error e => rw [hm2] at h; cases h
    | ok v2 =>
      rw [hm2] at h
      simp only [ok_bind] at h
      cases hm3 : wrN v (szt (pos * l.itemsize)) v2 with
      | error e => rw [hm3] at h; cases h
      | ok v3 => rw [hm3] at h; simp [pure_eq_ok] at h

theorem insert_sorted_spec {l : SB} {xs} (h : Rep l xs) (hbi : 0 < l.blockitems)
    (hb : (l.count + l.blockitems) * l.itemsize < 2^64) (a : Alloc) (o : List Byte) (ho : o.length = l.itemsize)
    (cmp : List Byte → List Byte → Int) :
    (∃ l' p, insert_sorted a l o cmp = .ok (l', some p) ∧ p ≤ xs.length ∧ Rep l' (xs.take p ++ o :: xs.drop p) ∧
      (TotalPreorder cmp → Sorted cmp xs → Sorted cmp (xs.take p ++ o :: xs.drop p))) ∨
    (a = none ∧ l.count = l.capa ∧ insert_sorted a l o cmp = .ok (l, none)) := by
  have hb0 : l.count * l.itemsize < 2^64 := mul_lt_of hb (by omega)
  have hpos : ∃ p, sortedIndex l o cmp = .ok p ∧
      p ≤ xs.length ∧ (TotalPreorder cmp → Sorted cmp xs → Sorted cmp (xs.take p ++ o :: xs.drop p)) := by
    unfold sortedIndex
    by_cases h0 : l.count = 0
    · rw [if_pos h0]
      have : xs = [] := List.eq_nil_of_length_eq_zero (by have := h.count; omega)
      subst this
      exact ⟨0, rfl, by simp, fun _ _ => by simp [Sorted]⟩
    · rw [if_neg h0]
      obtain ⟨p, p1, p2, p3⟩ := sortedPos_spec h hb0 o cmp (l.count + 1) 0 (l.count - 1) (by omega)
        (by have := h.count; omega) (by omega)
      refine ⟨p, p1, p2, fun ht hs => ?_⟩
      obtain ⟨q1, q2⟩ := p3 ht hs (fun i _ h => by omega) (fun i _ hi => by have := h.count; omega)
      exact sorted_insert hs q1 q2
  obtain ⟨p, p1, p2, p3⟩ := hpos
  unfold insert_sorted
  rw [p1]
  simp only [ok_bind]
  rcases insert_spec h hbi hb a o ho p p2 with ⟨l', i1, i2, i3, i4⟩ | ⟨i1, i2⟩
  · left
    rw [i1]
    exact ⟨l', p, rfl, p2, i2, p3⟩
  · right
    rw [i2]
    exact ⟨i1, insert_fail i2 (by rw [h.count]; exact p2), rfl⟩

end Ulz.Sblist

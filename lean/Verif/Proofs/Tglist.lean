import Verif.Spec.Tglist
import Verif.Proofs.Sblist
set_option linter.unusedSimpArgs false
set_option linter.unusedVariables false
namespace Ulz.Tglist
open Spec
open Ulz.Sblist (mul_lt_of flatten_split)
open Ulz.Sblist.Spec (TotalPreorder Sorted)

theorem Spec.Rep.items_length {isz} {l : TG} {xs} (h : Rep isz l xs) : l.items.length = l.capa * isz := by
  obtain ⟨slack, h1, h2⟩ := h.buf
  rw [h1, List.length_append, flatten_length h.item, h2, ← h.count, ← Nat.add_mul]
  congr 1; have := h.capa; omega

theorem get_spec {isz} {l : TG} {xs} (h : Rep isz l xs) (hb : l.count * isz < 2^64) {i : Nat} (hi : i < xs.length) :
    get isz l i = .ok xs[i] := by
  unfold get
  rw [szt_of_lt (mul_lt_of hb (by have := h.count; omega))]
  obtain ⟨slack, h1, h2⟩ := h.buf
  obtain ⟨a1, a2, a3⟩ := flatten_split h.item (pos := i) (by omega)
  have e : xs.drop i = xs[i] :: xs.drop (i + 1) := List.drop_eq_getElem_cons hi
  rw [h1, a3, e, List.flatten_cons, ← List.append_assoc, List.append_assoc (_ ++ xs[i])]
  rw [rdN_mid a1.symm (h.item _ (List.getElem_mem _)).symm]

theorem grow_spec {isz} {l : TG} {xs} (h : Rep isz l xs)
    (hb : (2 * l.count + 4) * isz < 2^64) (a : Alloc) :
    (∃ l', grow_if_needed isz a l = (l', 1) ∧ Rep isz l' xs ∧ l'.count < l'.capa ∧
      (CapaOk l.capa → CapaOk l'.capa)) ∨
    (a = none ∧ l.count = l.capa ∧ grow_if_needed isz a l = (l, 0)) := by
  unfold grow_if_needed
  by_cases hc : l.count = l.capa
  · have h64 : (2 * l.count + 4) * 1 ≤ (2 * l.count + 4) * isz := Nat.mul_le_mul_left _ h.pos
    have hn : (if l.capa = 0 then 4 else szt (l.capa * 2)) = if l.capa = 0 then 4 else l.capa * 2 := by
      split
      · rfl
      · exact szt_of_lt (by omega)
    rw [if_pos hc, hn]
    dsimp only
    have hCO : CapaOk l.capa → CapaOk (if l.capa = 0 then 4 else l.capa * 2) := by
      intro hk
      split
      · exact Or.inr ⟨0, rfl⟩
      · rcases hk with hk | ⟨k, hk⟩
        · contradiction
        · exact Or.inr ⟨k + 1, by rw [hk, Nat.pow_succ]; omega⟩
    have hgt : l.capa < (if l.capa = 0 then 4 else l.capa * 2) ∧ (if l.capa = 0 then 4 else l.capa * 2) ≤ 2 * l.count + 4 := by
      split <;> omega
    generalize (if l.capa = 0 then 4 else l.capa * 2) = n at hCO hgt ⊢
    rw [szt_of_lt (mul_lt_of hb hgt.2)]
    cases a with
    | none => right; exact ⟨rfl, hc, rfl⟩
    | some f =>
      left
      have hil := h.items_length
      obtain ⟨junk, h1, h2⟩ := realloc_some (f := f) (old := l.items) (n := n * isz)
        (by rw [hil]; exact Nat.mul_le_mul_right _ (by omega))
      rw [h1]
      refine ⟨_, rfl, ?_, by simp; omega, hCO⟩
      obtain ⟨slack, b1, b2⟩ := h.buf
      refine ⟨h.pos, h.count, h.item, by simp; omega, slack ++ junk, by simp [b1], ?_⟩
      simp only [List.length_append, h2, b2, hil, ← hc]
      rw [← Nat.sub_mul, ← Nat.add_mul]
      congr 1; omega
  · rw [if_neg hc]
    left
    exact ⟨l, rfl, h, by have := h.capa; omega, id⟩

theorem add_raw {isz} {l : TG} {xs} (h : Rep isz l xs) (hc : l.count < l.capa) (hb : (l.count + 1) * isz < 2^64)
    (x : List Byte) (hx : x.length = isz) :
    ∃ l', set isz { l with count := l.count + 1 } x l.count = .ok (l', 1) ∧ Rep isz l' (xs ++ [x]) ∧
      l'.capa = l.capa := by
  obtain ⟨slack, b1, b2⟩ := h.buf
  have hs : isz ≤ slack.length := by
    rw [b2]; exact Nat.le_mul_of_pos_left _ (by omega)
  unfold set
  simp only
  rw [szt_of_lt (mul_lt_of hb (by omega)), rdN_all hx]
  simp only [ok_bind]
  have e : l.items = xs.flatten ++ slack.take isz ++ slack.drop isz := by
    rw [List.append_assoc, List.take_append_drop, b1]
  rw [e, wrN_mid (by rw [flatten_length h.item, h.count]) (by simp; omega)]
  simp only [ok_bind]
  refine ⟨_, rfl, ⟨h.pos, by simp [h.count], ?_, hc, slack.drop isz, by simp, ?_⟩, rfl⟩
  · intro y hy
    rcases List.mem_append.1 hy with hy | hy
    · exact h.item y hy
    · simp at hy; subst hy; exact hx
  · simp only [List.length_drop, b2]
    rw [show l.capa - (l.count + 1) = l.capa - l.count - 1 by omega, Nat.sub_mul (_ - _), Nat.one_mul]

theorem add_spec {isz} {l : TG} {xs} (h : Rep isz l xs)
    (hb : (2 * l.count + 4) * isz < 2^64) (a : Alloc) (x : List Byte) (hx : x.length = isz) :
    (∃ l', add isz a l x = .ok (l', 1) ∧ Rep isz l' (xs ++ [x]) ∧ (CapaOk l.capa → CapaOk l'.capa)) ∨
    (a = none ∧ l.count = l.capa ∧ add isz a l x = .ok (l, 0)) := by
  unfold add
  rcases grow_spec h hb a with ⟨l1, h1, h2, h3, h4⟩ | ⟨h1, hc, h2⟩
  · left
    rw [h1]
    have hb' : (l1.count + 1) * isz < 2^64 := by
      rw [h2.count, ← h.count]; exact mul_lt_of hb (by omega)
    obtain ⟨l2, s1, s2, s3⟩ := add_raw h2 h3 hb' x hx
    refine ⟨l2, ?_, s2, by rw [s3]; exact h4⟩
    simp only [Nat.one_ne_zero, if_false, Nat.add_sub_cancel]; exact s1
  · right
    rw [h2]
    exact ⟨h1, hc, rfl⟩

theorem set_spec {isz} {l : TG} {xs} (h : Rep isz l xs) (hb : l.count * isz < 2^64) (x : List Byte)
    (hx : x.length = isz) {pos : Nat} (hp : pos < xs.length) :
    ∃ l', set isz l x pos = .ok (l', 1) ∧ Rep isz l' (xs.set pos x) ∧ l'.capa = l.capa := by
  have hp' : pos < l.count := by rw [h.count]; exact hp
  unfold set
  rw [szt_of_lt (mul_lt_of hb (by omega)), rdN_all hx]
  simp only [ok_bind]
  obtain ⟨slack, b1, b2⟩ := h.buf
  obtain ⟨a1, a2, a3⟩ := flatten_split h.item (pos := pos) (by omega)
  have e : xs.drop pos = xs[pos] :: xs.drop (pos + 1) := List.drop_eq_getElem_cons hp
  have e2 : l.items = (xs.take pos).flatten ++ xs[pos] ++ ((xs.drop (pos + 1)).flatten ++ slack) := by
    rw [b1, a3, e, List.flatten_cons]; simp only [List.append_assoc]
  rw [e2, wrN_mid a1.symm (by rw [hx, h.item _ (List.getElem_mem _)])]
  simp only [ok_bind]
  refine ⟨_, rfl, ⟨h.pos, by simp [h.count], ?_, h.capa, slack, ?_, b2⟩, rfl⟩
  · intro y hy
    rcases List.mem_or_eq_of_mem_set hy with hy | hy
    · exact h.item y hy
    · subst hy; exact hx
  · rw [List.set_eq_take_append_cons_drop, if_pos hp]; simp

theorem insert_spec {isz} {l : TG} {xs} (h : Rep isz l xs)
    (hb : (2 * l.count + 4) * isz < 2^64) (a : Alloc) (x : List Byte) (hx : x.length = isz)
    {pos : Nat} (hp : pos ≤ xs.length) :
    (∃ l', insert isz a l x pos = .ok (l', 1) ∧ Rep isz l' (xs.take pos ++ x :: xs.drop pos) ∧
      (CapaOk l.capa → CapaOk l'.capa)) ∨
    (a = none ∧ l.count = l.capa ∧ insert isz a l x pos = .ok (l, 0)) := by
  unfold insert
  rcases grow_spec h hb a with ⟨l1, h1, h2, h3, h5⟩ | ⟨h1, hc, h2⟩
  · left
    rw [h1]
    have hcnt : l1.count = l.count := by rw [h2.count, h.count]
    have hb' : (l1.count + 1) * isz < 2^64 := by
      rw [hcnt]; exact mul_lt_of hb (by omega)
    have hpc : pos ≤ l1.count := by rw [h2.count]; exact hp
    have hc64 : l1.count < 2^64 := by
      have : l1.count * 1 ≤ (l1.count + 1) * isz := Nat.mul_le_mul (by omega) h2.pos
      omega
    have hi64 : isz < 2^64 := by
      have : 1 * isz ≤ (l1.count + 1) * isz := Nat.mul_le_mul_right _ (by omega)
      omega
    obtain ⟨slack, b1, b2⟩ := h2.buf
    obtain ⟨a1, a2, a3⟩ := flatten_split h2.item (pos := pos) hp
    have hs : isz ≤ slack.length := by
      rw [b2]; exact Nat.le_mul_of_pos_left _ (by omega)
    simp only [Nat.one_ne_zero, if_false]
    unfold memmove_impl
    dsimp only
    rw [show Int.toNat ((-1) % 2^64) = 2^64 - 1 from by decide]
    have e1 : szt (isz * (2^64 - 1)) = 2^64 - isz := by
      unfold szt
      have : isz * (2^64 - 1) = 2^64 * (isz - 1) + (2^64 - isz) := by have := h2.pos; omega
      rw [this, Nat.mul_add_mod]; exact Nat.mod_eq_of_lt (by have := h2.pos; omega)
    have hd : szt ((pos + 1) * isz) = pos * isz + isz := by
      rw [szt_of_lt (mul_lt_of hb' (by omega)), Nat.add_mul, Nat.one_mul]
    have hpb := mul_lt_of hb' (show pos ≤ l1.count + 1 by omega)
    have e2 : szt (pos * isz + isz + (2^64 - isz)) = pos * isz := by unfold szt; omega
    have e3 : szt (pos + 1 + (2^64 - 1)) = pos := by unfold szt; omega
    rw [e1, hd, e2, e3, sztSub_of_le hpc hc64, szt_of_lt (mul_lt_of hb' (by omega))]
    rw [b1, a3, memmove_up (k := isz) a1.symm (by rw [a1]) (by rw [a2, h2.count]) hs]
    simp only [ok_bind, pure_eq_ok]
    unfold set
    simp only
    rw [szt_of_lt (mul_lt_of hb' (by omega)), rdN_all hx]
    simp only [ok_bind]
    rw [List.append_assoc (_ ++ _), wrN_mid a1.symm (by simp [hx]; omega)]
    simp only [ok_bind]
    refine ⟨_, rfl, ⟨h2.pos, ?_, ?_, h3, slack.drop isz, by simp, ?_⟩, h5⟩
    · simp [h2.count]; omega
    · intro y hy
      rcases List.mem_append.1 hy with hy | hy
      · exact h2.item y (List.mem_of_mem_take hy)
      · rcases List.mem_cons.1 hy with rfl | hy
        · exact hx
        · exact h2.item y (List.mem_of_mem_drop hy)
    · simp only [List.length_drop, b2]
      rw [show l1.capa - (l1.count + 1) = l1.capa - l1.count - 1 by omega, Nat.sub_mul (_ - _), Nat.one_mul]
  · right
    rw [h2]
    exact ⟨h1, hc, rfl⟩

theorem delete_spec {isz} {l : TG} {xs} (h : Rep isz l xs) (hb : l.count * isz < 2^64) {i : Nat}
    (hi' : i < xs.length) :
    ∃ l', delete isz l i = .ok l' ∧ Rep isz l' (xs.eraseIdx i) ∧ l'.capa = l.capa ∧ l'.count = l.count - 1 := by
  have hi : i < l.count := by rw [h.count]; exact hi'
  unfold delete memmove_impl
  dsimp only
  obtain ⟨slack, b1, b2⟩ := h.buf
  obtain ⟨a1, a2, a3⟩ := flatten_split h.item (pos := i) (by omega)
  obtain ⟨c1, c2, c3⟩ := flatten_split h.item (pos := i + 1) (by omega)
  have e : xs.drop i = xs[i] :: xs.drop (i + 1) := List.drop_eq_getElem_cons hi'
  have hm := h.item _ (List.getElem_mem hi')
  have hc64 : l.count < 2^64 := by
    have : l.count * 1 ≤ l.count * isz := Nat.mul_le_mul_left _ h.pos
    omega
  have hi64 : isz < 2^64 := by
    have : 1 * isz ≤ l.count * isz := Nat.mul_le_mul_right _ (by omega)
    omega
  rw [show Int.toNat (1 % 2^64) = 1 from by decide, Nat.mul_one, szt_of_lt hi64,
    szt_of_lt (mul_lt_of hb (show i ≤ l.count by omega)), ← Nat.succ_mul, szt_of_lt (mul_lt_of hb (show i + 1 ≤ l.count by omega)),
    szt_of_lt (show i + 1 < 2^64 by omega), sztSub_of_le (show i + 1 ≤ l.count by omega) hc64,
    szt_of_lt (mul_lt_of hb (show l.count - (i + 1) ≤ l.count by omega))]
  have e2 : l.items = (xs.take i).flatten ++ xs[i] ++ (xs.drop (i + 1)).flatten ++ slack := by
    rw [b1, a3, e, List.flatten_cons]; simp only [List.append_assoc]
  rw [e2, memmove_down (by rw [a1, hm, Nat.succ_mul]) a1.symm (by rw [c2, h.count])]
  simp only [ok_bind, pure_eq_ok]
  rw [sztSub_of_le (show 1 ≤ l.count by omega) hc64]
  refine ⟨_, rfl, ⟨h.pos, ?_, ?_, by simp; have := h.capa; omega,
    (xs[i] ++ (xs.drop (i + 1)).flatten ++ slack).drop (xs.drop (i + 1)).flatten.length, ?_, ?_⟩, rfl, rfl⟩
  · simp [List.length_eraseIdx, hi', h.count]
  · intro y hy; exact h.item y (List.mem_of_mem_eraseIdx hy)
  · simp only [List.eraseIdx_eq_take_drop_succ, List.flatten_append]
  · simp only [List.length_drop, List.length_append, hm, b2]
    rw [show isz + (xs.drop (i + 1)).flatten.length + (l.capa - l.count) * isz -
      (xs.drop (i + 1)).flatten.length = (l.capa - l.count) * isz + isz by omega]
    rw [← Nat.succ_mul]
    congr 1; have := h.capa; omega

theorem step_spec {isz} {l : TG} {xs} (h : Rep isz l xs)
    (hb : (2 * l.count + 4) * isz < 2^64) (op : Op) (hop : OpOk isz l.count op) :
    ∃ l' r ys, step isz l op = .ok (l', r) ∧ Step xs op ys r ∧ Rep isz l' ys ∧
      (CapaOk l.capa → CapaOk l'.capa) ∧ l'.count ≤ l.count + 1 := by
  have hb0 : l.count * isz < 2^64 := mul_lt_of hb (by omega)
  cases op with
  | add x a =>
    rcases add_spec h hb a x hop with ⟨l', h1, h3, h4⟩ | ⟨h1, _, h2⟩
    · exact ⟨l', _, _, by simp only [step, h1]; rfl, .add, h3, h4, by rw [h3.count, h.count]; simp⟩
    · subst h1
      exact ⟨l, _, _, by simp only [step, h2]; rfl, .addFail, h, id, by omega⟩
  | set x pos =>
    have hp : pos < xs.length := by rw [← h.count]; exact hop.2
    obtain ⟨l', h1, h2, h3⟩ := set_spec h hb0 x hop.1 hp
    exact ⟨l', _, _, by simp only [step, h1]; rfl, .set hp, h2, by rw [h3]; exact id, by rw [h2.count, h.count]; simp⟩
  | get i =>
    have hp : i < xs.length := by rw [← h.count]; exact hop
    exact ⟨l, _, _, by simp only [step, get_spec h hb0 hp]; rfl, .get hp, h, id, by omega⟩
  | insert x pos a =>
    have hp : pos ≤ xs.length := by rw [← h.count]; exact hop.2
    rcases insert_spec h hb a x hop.1 hp with ⟨l', h1, h3, h4⟩ | ⟨h1, _, h2⟩
    · exact ⟨l', _, _, by simp only [step, h1]; rfl, .insert hp, h3, h4, by rw [h3.count, h.count]; simp; omega⟩
    · subst h1
      exact ⟨l, _, _, by simp only [step, h2]; rfl, .insertFail hp, h, id, by omega⟩
  | delete i =>
    have hp : i < xs.length := by rw [← h.count]; exact hop
    obtain ⟨l', h1, h2, h3, h4⟩ := delete_spec h hb0 hp
    exact ⟨l', _, _, by simp only [step, h1]; rfl, .delete hp, h2, by rw [h3]; exact id, by omega⟩
  | getsize =>
    exact ⟨l, _, _, by simp only [step, h.count]; rfl, .getsize, h, id, by omega⟩

theorem run_spec {isz} : ∀ (ops : List Op) (l : TG) (xs : List (List Byte)), Rep isz l xs → CapaOk l.capa →
    (2 * (l.count + ops.length) + 4) * isz < 2^64 → Valid isz l ops →
    ∃ l' rs ys, run isz l ops = .ok (l', rs) ∧ Steps xs ops ys rs ∧ Rep isz l' ys ∧ CapaOk l'.capa ∧
      l'.count ≤ l.count + ops.length
  | [], l, xs, h, hc, hb, hv => ⟨l, [], xs, rfl, .nil, h, hc, by simp⟩
  | op :: ops, l, xs, h, hc, hb, hv => by
    simp only [List.length_cons] at hb
    obtain ⟨l1, r, ys, h1, h2, h3, h4, h6⟩ := step_spec h (mul_lt_of hb (by omega)) op
      (hv [] op ops rfl l [] rfl)
    obtain ⟨l2, rs, zs, r1, r2, r3, r4, r5⟩ := run_spec ops l1 ys h3 (h4 hc)
      (mul_lt_of hb (by omega)) (by
        intro pre op' post he l' rs hr
        exact hv (op :: pre) op' post (by rw [he]; rfl) l' (r :: rs) (by
          simp only [run, h1, ok_bind, hr]; rfl))
    exact ⟨l2, r :: rs, zs, by simp only [run, h1, ok_bind, r1]; rfl, .cons h2 r2, r3, r4, by simp; omega⟩

theorem init_rep {isz} (h : 0 < isz) : Rep isz init [] := ⟨h, rfl, by simp, by simp [init], [], rfl, by simp [init]⟩

theorem sortedPos_spec {isz} {l : TG} {xs} (h : Rep isz l xs) (hb : l.count * isz < 2^64) (o : List Byte)
    (cmp : List Byte → List Byte → Int) : ∀ fuel hi lo, hi ≤ lo → lo < xs.length → lo - hi < fuel →
    ∃ p, sortedPos isz l o cmp fuel hi lo = .ok p ∧ p ≤ xs.length ∧
      (TotalPreorder cmp → Sorted cmp xs →
        (∀ i (hi' : i < xs.length), i < hi → cmp xs[i] o ≤ 0) →
        (∀ i (hi' : i < xs.length), lo < i → cmp o xs[i] ≤ 0) →
        (∀ i (hi' : i < xs.length), i < p → cmp xs[i] o ≤ 0) ∧
        (∀ i (hi' : i < xs.length), p ≤ i → cmp o xs[i] ≤ 0)) := by
  intro fuel
  induction fuel with
  | zero => intro hi lo _ _ h3; omega
  | succ fuel ih =>
    intro hi lo hle hlt hf
    have hc : hi + (lo - hi) / 2 < xs.length := by omega
    unfold sortedPos
    dsimp only
    rw [get_spec h hb hc]
    simp only [ok_bind]
    by_cases heq : hi = lo
    · rw [if_pos heq]
      subst heq
      simp only [Nat.sub_self, Nat.zero_div, Nat.add_zero]
      by_cases hr : cmp o xs[hi] > 0
      · rw [if_pos hr]
        refine ⟨_, rfl, by omega, ?_⟩
        intro ht hs h1 h2
        refine ⟨?_, ?_⟩
        · intro i hi' hip
          by_cases he : i = hi
          · subst he; have := ht.flip xs[i] o; omega
          · exact h1 i hi' (by omega)
        · intro i hi' hip; exact h2 i hi' (by omega)
      · rw [if_neg hr]
        refine ⟨_, rfl, by omega, ?_⟩
        intro ht hs h1 h2
        refine ⟨fun i hi' hip => h1 i hi' hip, ?_⟩
        intro i hi' hip
        by_cases he : i = hi
        · subst he; omega
        · exact h2 i hi' (by omega)
    · rw [if_neg heq]
      generalize hcdef : hi + (lo - hi) / 2 = c at hc
      by_cases hr : cmp o xs[c] < 0
      · rw [if_pos hr]
        simp only
        have hlo : (if c ≠ 0 then c - 1 else 0) = c - 1 := by split <;> omega
        rw [hlo]
        have hhi : (if hi > c - 1 then c - 1 else hi) = min hi (c - 1) := by split <;> omega
        rw [hhi]
        obtain ⟨p, p1, p2, p3⟩ := ih (min hi (c - 1)) (c - 1) (by omega) (by omega) (by omega)
        refine ⟨p, p1, p2, ?_⟩
        intro ht hs h1 h2
        refine p3 ht hs (fun i hi' hi2 => h1 i hi' (by omega)) ?_
        intro i hi' hi2
        exact ht.trans _ _ _ (by omega) (Sblist.sorted_le ht hs hi' (show c ≤ i by omega))
      · rw [if_neg hr]
        by_cases hr2 : cmp o xs[c] > 0
        · rw [if_pos hr2]
          simp only
          have hhi : (if c + 1 > lo then lo else c + 1) = c + 1 := by rw [if_neg (by omega)]
          rw [hhi]
          obtain ⟨p, p1, p2, p3⟩ := ih (c + 1) lo (by omega) (by omega) (by omega)
          refine ⟨p, p1, p2, ?_⟩
          intro ht hs h1 h2
          refine p3 ht hs ?_ h2
          intro i hi' hi2
          have := ht.flip xs[c] o
          exact ht.trans _ _ _ (Sblist.sorted_le ht hs hc (show i ≤ c by omega)) (by omega)
        · rw [if_neg hr2]
          simp only [gt_iff_lt, Nat.lt_irrefl, if_false]
          obtain ⟨p, p1, p2, p3⟩ := ih c c (by omega) (by omega) (by omega)
          refine ⟨p, p1, p2, ?_⟩
          intro ht hs h1 h2
          refine p3 ht hs ?_ ?_
          · intro i hi' hi2
            exact ht.trans _ _ _ (Sblist.sorted_le ht hs hc (show i ≤ c by omega)) (ht.le_of_pos hr)
          · intro i hi' hi2
            exact ht.trans _ _ _ (by omega) (Sblist.sorted_le ht hs hi' (show c ≤ i by omega))

theorem insert_sorted_spec {isz} {l : TG} {xs} (h : Rep isz l xs)
    (hb : (2 * l.count + 4) * isz < 2^64) (a : Alloc) (o : List Byte) (ho : o.length = isz)
    (cmp : List Byte → List Byte → Int) :
    (∃ l' p, insert_sorted isz a l o cmp = .ok (l', some p) ∧ p ≤ xs.length ∧ Rep isz l' (xs.take p ++ o :: xs.drop p) ∧
      (TotalPreorder cmp → Sorted cmp xs → Sorted cmp (xs.take p ++ o :: xs.drop p))) ∨
    (a = none ∧ l.count = l.capa ∧ insert_sorted isz a l o cmp = .ok (l, none)) := by
  have hb0 : l.count * isz < 2^64 := mul_lt_of hb (by omega)
  have hpos : ∃ p, sortedIndex isz l o cmp = .ok p ∧
      p ≤ xs.length ∧ (TotalPreorder cmp → Sorted cmp xs → Sorted cmp (xs.take p ++ o :: xs.drop p)) := by
    unfold sortedIndex
    by_cases h0 : l.count = 0
    · rw [if_pos h0]
      have : xs = [] := List.eq_nil_of_length_eq_zero (by have := h.count; omega)
      subst this
      exact ⟨0, rfl, by simp, fun _ _ => by simp [Sorted]⟩
    · rw [if_neg h0]
      obtain ⟨p, p1, p2, p3⟩ := sortedPos_spec h hb0 o cmp (l.count + 1) 0 (l.count - 1) (by omega)
        (by have := h.count; omega) (by omega)
      refine ⟨p, p1, p2, fun ht hs => ?_⟩
      obtain ⟨q1, q2⟩ := p3 ht hs (fun i _ h => by omega) (fun i _ hi => by have := h.count; omega)
      exact Sblist.sorted_insert hs q1 q2
  obtain ⟨p, p1, p2, p3⟩ := hpos
  unfold insert_sorted
  rw [p1]
  simp only [ok_bind]
  rcases insert_spec h hb a o ho p2 with ⟨l', i1, i2, i3⟩ | ⟨i1, i3, i2⟩
  · left
    rw [i1]
    exact ⟨l', p, rfl, p2, i2, p3⟩
  · right
    rw [i2]
    exact ⟨i1, i3, rfl⟩

/-! ### free_values -/

theorem leVal_leBytes : ∀ (w n : Nat), n < 256^w → leVal (leBytes w n) = n
  | 0, n, h => by simp at h; simp [leBytes, leVal, h]
  | w + 1, n, h => by
    simp only [leBytes, leVal]
    rw [leVal_leBytes w (n / 256) (by rw [Nat.pow_succ] at h; exact Nat.div_lt_of_lt_mul (by omega))]
    simp only [BitVec.toNat_ofNat]
    omega

theorem leBytes_length : ∀ (w n : Nat), (leBytes w n).length = w
  | 0, _ => rfl
  | w + 1, n => by simp [leBytes, leBytes_length w]

theorem freeValuesLoop_spec {l : TG} {xs} (h : Rep 8 l xs) (hb : l.count * 8 < 2^64) :
    ∀ (n : Nat) (c : Nat) (live : List Nat), n ≤ xs.length →
      (((xs.take n).map leVal).filter (· ≠ 0)).Nodup →
      (∀ p ∈ (xs.take n).map leVal, p ≠ 0 → p ∈ live) → live.Nodup →
      ∃ live', freeValuesLoop 8 { l with count := c } n live = .ok ({ l with count := if n = 0 then c else 0 }, live') ∧
        live'.Nodup ∧ ∀ a, a ∈ live' ↔ a ∈ live ∧ (a = 0 ∨ a ∉ (xs.take n).map leVal)
  | 0, c, live, hn, hnd, hm, hl => ⟨live, rfl, hl, by simp⟩
  | n + 1, c, live, hn, hnd, hm, hl => by
    have hrd : rdN l.items (szt (n * 8)) 8 = .ok xs[n] := by
      have := get_spec h hb (i := n) (by omega)
      exact this
    have htake : xs.take (n + 1) = xs.take n ++ [xs[n]] := (List.take_append_getElem (by omega)).symm
    have hnext : ∀ c' live1, live1.Nodup → (∀ p ∈ (xs.take n).map leVal, p ≠ 0 → p ∈ live1) → ∃ live',
        freeValuesLoop 8 { l with count := c' } n live1 = .ok ({ l with count := if n = 0 then c' else 0 }, live') ∧
        live'.Nodup ∧ ∀ a, a ∈ live' ↔ a ∈ live1 ∧ (a = 0 ∨ a ∉ (xs.take n).map leVal) := by
      intro c' live1 h1 h2
      refine freeValuesLoop_spec h hb n c' live1 (by omega) ?_ h2 h1
      rw [htake, List.map_append, List.filter_append] at hnd
      exact (List.nodup_append.1 hnd).1
    simp only [freeValuesLoop, hrd, ok_bind]
    unfold hfree
    by_cases h0 : leVal xs[n] = 0
    · rw [if_pos h0]
      simp only [pure_eq_ok, ok_bind]
      obtain ⟨live', r1, r2, r3⟩ := hnext n live hl (fun p hp hp0 => hm p (by rw [htake, List.map_append]; exact List.mem_append_left _ hp) hp0)
      refine ⟨live', ?_, r2, ?_⟩
      · rw [r1]; simp
      · intro a
        rw [r3, htake]
        simp only [List.map_append, List.mem_append, List.map_cons, List.map_nil, List.mem_singleton, h0]
        constructor
        · rintro ⟨h1, h2⟩; exact ⟨h1, by by_cases ha : a = 0; exact .inl ha; right; rintro (h | h); exact (h2.resolve_left ha) h; exact ha h⟩
        · rintro ⟨h1, h2⟩; exact ⟨h1, h2.imp id (fun h h' => h (.inl h'))⟩
    · have hmem : leVal xs[n] ∈ live := hm _ (by rw [htake, List.map_append]; exact List.mem_append_right _ (by simp)) h0
      rw [if_neg h0, if_pos hmem]
      simp only [pure_eq_ok, ok_bind]
      have hnotin : leVal xs[n] ∉ (xs.take n).map leVal := by
        rw [htake, List.map_append, List.filter_append] at hnd
        intro hin
        have := (List.nodup_append.1 hnd).2.2 (leVal xs[n]) (List.mem_filter.2 ⟨hin, by simpa using h0⟩)
          (leVal xs[n]) (by simp [h0])
        exact this rfl
      obtain ⟨live', r1, r2, r3⟩ := hnext n (live.erase (leVal xs[n])) (hl.erase _) (by
        intro p hp hp0
        refine (List.Nodup.mem_erase_iff hl).2 ⟨?_, hm p (by rw [htake, List.map_append]; exact List.mem_append_left _ hp) hp0⟩
        intro he; subst he; exact hnotin hp)
      refine ⟨live', ?_, r2, ?_⟩
      · rw [r1]; simp
      · intro a
        rw [r3, htake, List.Nodup.mem_erase_iff hl]
        simp only [List.map_append, List.mem_append, List.map_cons, List.map_nil, List.mem_singleton]
        constructor
        · rintro ⟨⟨h1, h2⟩, h3⟩; exact ⟨h2, h3.imp id (fun h h' => h'.elim h h1)⟩
        · rintro ⟨h1, h2⟩
          refine ⟨⟨?_, h1⟩, h2.imp id (fun h h' => h (.inl h'))⟩
          rintro rfl
          rcases h2 with h2 | h2
          · exact h0 h2
          · exact h2 (.inr rfl)

/-! ### tgilist -/

def look (vals : List (List Byte)) (idxs : List Nat) : List (List Byte) := idxs.map fun i => vals.getD i []

structure IRep (w isz : Nat) (l : TGI) (idxs : List Nat) (vals : List (List Byte)) : Prop where
  index : Rep w l.index (idxs.map (leBytes w))
  items : Rep isz l.items vals
  nodup : idxs.Nodup
  lt : ∀ i ∈ idxs, i < vals.length
  fit : vals.length ≤ 256^w

theorem iidx_spec {w isz l idxs vals} (h : IRep w isz l idxs vals) (hw : l.index.count * w < 2^64) {i}
    (hi : i < idxs.length) : iidx w l i = .ok idxs[i] := by
  unfold iidx
  rw [get_spec h.index hw (i := i) (by simpa using hi)]
  simp only [ok_bind, pure_eq_ok, List.getElem_map]
  rw [leVal_leBytes _ _ (Nat.lt_of_lt_of_le (h.lt _ (List.getElem_mem _)) h.fit)]

theorem rep_append_drop {isz} {l : TG} {xs x} (h : Rep isz l (xs ++ [x])) : Rep isz { l with count := l.count - 1 } xs := by
  obtain ⟨slack, b1, b2⟩ := h.buf
  have hc := h.count
  have hk := h.capa
  simp only [List.length_append, List.length_singleton] at hc
  refine ⟨h.pos, by simp [hc], fun y hy => h.item y (by simp [hy]), by simp; omega, x ++ slack, by simp [b1], ?_⟩
  simp only [List.length_append, b2, h.item x (by simp)]
  rw [show l.capa - (l.count - 1) = l.capa - l.count + 1 by omega, Nat.succ_mul]; omega

theorem look_append {vals x idxs} (h : ∀ i ∈ idxs, i < vals.length) : look (vals ++ [x]) idxs = look vals idxs := by
  unfold look
  apply List.map_congr_left
  intro i hi
  simp [List.getD_eq_getElem?_getD, List.getElem?_append_left (h i hi)]

theorem IRep.grow {w isz l idxs vals} (h : IRep w isz l idxs vals) {ix t} {pos : Nat} {x}
    (hlt : vals.length < 256^w)
    (hix : Rep w ix ((idxs.take pos ++ vals.length :: idxs.drop pos).map (leBytes w)))
    (ht : Rep isz t (vals ++ [x])) :
    IRep w isz ⟨ix, t⟩ (idxs.take pos ++ vals.length :: idxs.drop pos) (vals ++ [x]) ∧
    look (vals ++ [x]) (idxs.take pos ++ vals.length :: idxs.drop pos) =
      (look vals idxs).take pos ++ x :: (look vals idxs).drop pos := by
  have hp : (idxs.take pos ++ vals.length :: idxs.drop pos).Perm (vals.length :: idxs) := by
    refine List.perm_middle.trans ?_
    rw [List.take_append_drop]
  constructor
  · refine ⟨hix, ht, ?_, ?_, by rw [List.length_append]; exact hlt⟩
    · rw [hp.nodup_iff, List.nodup_cons]
      exact ⟨fun hm => by have := h.lt _ hm; omega, h.nodup⟩
    · intro i hi
      rcases List.mem_cons.1 (hp.mem_iff.1 hi) with rfl | hi
      · simp
      · have := h.lt i hi; simp; omega
  · have h1 : look vals idxs = look (vals ++ [x]) idxs := (look_append h.lt).symm
    rw [h1]
    simp only [look, List.map_append, List.map_cons, List.map_take, List.map_drop]
    simp [List.getD_eq_getElem?_getD]

theorem iadd_spec {w isz l idxs vals} (h : IRep w isz l idxs vals) (hw : (2 * vals.length + 4) * w < 2^64)
    (hic : l.index.count ≤ vals.length)
    (hs : (2 * vals.length + 4) * isz < 2^64) (hlt : vals.length < 256^w) (a1 a2 : Alloc) (x : List Byte)
    (hx : x.length = isz) :
    (∃ l' , iadd w isz a1 a2 l x = .ok (l', 1) ∧ IRep w isz l' (idxs ++ [vals.length]) (vals ++ [x]) ∧
      look (vals ++ [x]) (idxs ++ [vals.length]) = look vals idxs ++ [x]) ∨
    (∃ l', (a1 = none ∨ a2 = none) ∧ iadd w isz a1 a2 l x = .ok (l', 0) ∧ IRep w isz l' idxs vals) := by
  unfold iadd
  rw [h.items.count]
  have hw' : (2 * l.index.count + 4) * w < 2^64 := mul_lt_of hw (by omega)
  rcases add_spec h.index hw' a1 (leBytes w vals.length) (leBytes_length _ _) with ⟨ix, r1, r2, _⟩ | ⟨r1, _, r2⟩
  · rw [r1]
    simp only [ok_bind, Nat.one_ne_zero, if_false]
    rcases add_spec h.items (by rw [h.items.count]; exact hs) a2 x hx with ⟨t, s1, s2, _⟩ | ⟨s1, _, s2⟩
    · left
      rw [s1]
      simp only [ok_bind, ne_eq, Nat.one_ne_zero, not_false_eq_true, if_true]
      have hlen : idxs.length = idxs.length := rfl
      have := h.grow (pos := idxs.length) (x := x) (ix := ix) (t := t) hlt (by simpa using r2) s2
      simp only [List.take_length, List.drop_length] at this
      refine ⟨_, rfl, this.1, ?_⟩
      rw [this.2, List.take_of_length_le (by simp [look]), List.drop_eq_nil_of_le (by simp [look])]
    · right
      rw [s2]
      simp only [ok_bind, ne_eq, not_true_eq_false, if_false]
      have hrc := r2.count
      simp only [List.length_append, List.length_map, List.length_singleton] at hrc
      have hcc := h.index.count
      simp only [List.length_map] at hcc
      obtain ⟨ix', d1, d2, _, _⟩ := delete_spec r2 (mul_lt_of hw (by rw [hrc]; omega)) (i := ix.count - 1)
        (by simp; omega)
      rw [d1]
      refine ⟨_, .inr s1, rfl, ⟨?_, h.items, h.nodup, h.lt, h.fit⟩⟩
      rw [hrc, Nat.add_sub_cancel] at d2
      rw [List.eraseIdx_append_of_length_le (by simp)] at d2
      simpa using d2
  · right
    rw [r2]
    exact ⟨_, .inl r1, rfl, h⟩

theorem iinsert_spec {w isz l idxs vals} (h : IRep w isz l idxs vals) (hw : (2 * vals.length + 4) * w < 2^64)
    (hic : l.index.count ≤ vals.length)
    (hs : (2 * vals.length + 4) * isz < 2^64) (hlt : vals.length < 256^w) (a1 a2 : Alloc) (x : List Byte)
    (hx : x.length = isz) {pos} (hp : pos ≤ idxs.length) :
    (∃ l' , iinsert w isz a1 a2 l x pos = .ok (l', 1) ∧
      IRep w isz l' (idxs.take pos ++ vals.length :: idxs.drop pos) (vals ++ [x]) ∧
      look (vals ++ [x]) (idxs.take pos ++ vals.length :: idxs.drop pos) =
        (look vals idxs).take pos ++ x :: (look vals idxs).drop pos) ∨
    (∃ l', (a1 = none ∨ a2 = none) ∧ iinsert w isz a1 a2 l x pos = .ok (l', 0) ∧ IRep w isz l' idxs vals) := by
  unfold iinsert
  have hw' : (2 * l.index.count + 4) * w < 2^64 := mul_lt_of hw (by omega)
  rcases add_spec h.items (by rw [h.items.count]; exact hs) a2 x hx with ⟨t, s1, s2, _⟩ | ⟨s1, _, s2⟩
  · rw [s1]
    simp only [ok_bind, Nat.one_ne_zero, if_false]
    have htc : t.count - 1 = vals.length := by rw [s2.count]; simp
    rw [htc]
    rcases insert_spec h.index hw' a1 (leBytes w vals.length) (leBytes_length _ _) (pos := pos) (by simpa using hp)
      with ⟨ix, r1, r2, _⟩ | ⟨r1, _, r2⟩
    · left
      rw [r1]
      simp only [ok_bind, ne_eq, Nat.one_ne_zero, not_false_eq_true, if_true]
      have := h.grow (pos := pos) (x := x) (ix := ix) (t := t) hlt (by simpa [List.map_take, List.map_drop] using r2) s2
      exact ⟨_, rfl, this⟩
    · right
      rw [r2]
      simp only [ok_bind, ne_eq, not_true_eq_false, if_false]
      refine ⟨_, .inl r1, rfl, ⟨h.index, ?_, h.nodup, h.lt, h.fit⟩⟩
      have := rep_append_drop s2
      rwa [htc] at this
  · right
    rw [s2]
    exact ⟨_, .inr s1, rfl, h⟩

theorem map_eraseIdx' {α β} (f : α → β) (l : List α) (i : Nat) : (l.eraseIdx i).map f = (l.map f).eraseIdx i := by
  simp [List.eraseIdx_eq_take_drop_succ, List.map_take, List.map_drop]

theorem istep_spec {w isz l idxs vals} (h : IRep w isz l idxs vals) (hw : (2 * vals.length + 4) * w < 2^64)
    (hic : l.index.count ≤ vals.length)
    (hs : (2 * vals.length + 4) * isz < 2^64) (hlt : vals.length < 256^w) (op : IOp)
    (hop : IOpOk isz l.index.count op) :
    ∃ l' r idxs' vals', istep w isz l op = .ok (l', r) ∧ IStep (look vals idxs) op (look vals' idxs') r ∧
      IRep w isz l' idxs' vals' ∧ vals'.length ≤ vals.length + 1 ∧ l'.index.count ≤ vals'.length := by
  have hcc : l.index.count = idxs.length := by have := h.index.count; simpa using this
  have hlk : (look vals idxs).length = idxs.length := by simp [look]
  have hw0 : l.index.count * w < 2^64 := mul_lt_of hw (by omega)
  have hs0 : l.items.count * isz < 2^64 := mul_lt_of hs (by rw [h.items.count]; omega)
  have hcnt : ∀ {l' idxs' vals'}, IRep w isz l' idxs' vals' → l'.index.count = idxs'.length := by
    intro l' idxs' vals' h'; have := h'.index.count; simpa using this
  cases op with
  | add x a1 a2 =>
    rcases iadd_spec h hw hic hs hlt a1 a2 x hop with ⟨l', h1, h2, h3⟩ | ⟨l', h1, h2, h3⟩
    · refine ⟨l', _, _, _, by simp only [istep, h1]; rfl, by rw [h3]; exact .add, h2, by simp, ?_⟩
      rw [hcnt h2]; simp; omega
    · exact ⟨l', _, _, _, by simp only [istep, h2]; rfl, .addFail h1, h3, by omega, by rw [hcnt h3]; omega⟩
  | set x pos =>
    have hp : pos < idxs.length := by rw [← hcc]; exact hop.2
    obtain ⟨t, s1, s2, s3⟩ := set_spec h.items hs0 x hop.1 (pos := idxs[pos]) (h.lt _ (List.getElem_mem _))
    refine ⟨{ l with items := t }, .int 1, idxs, vals.set idxs[pos] x, ?_, ?_, ⟨h.index, s2, h.nodup, by simpa using h.lt, by simpa using h.fit⟩, by simp, by simpa using hic⟩
    · simp only [istep, iset, iidx_spec h hw0 hp, ok_bind, s1]; rfl
    · have : look (vals.set idxs[pos] x) idxs = (look vals idxs).set pos x := by
        apply List.ext_getElem
        · simp [look]
        · intro i h1 h2
          simp only [look, List.length_map] at h1
          simp only [look, List.getElem_map, List.getElem_set, List.getD_eq_getElem?_getD, List.getElem?_set]
          by_cases he : pos = i
          · subst he
            simp [h.lt _ (List.getElem_mem hp)]
          · have : idxs[pos] ≠ idxs[i] := fun hh => he ((List.getElem_inj h.nodup).1 hh)
            simp [he, this]
      rw [this]
      exact .set (by omega)
  | get i =>
    have hp : i < idxs.length := by rw [← hcc]; exact hop
    refine ⟨l, _, idxs, vals, ?_, .get (by omega), h, by omega, hic⟩
    simp only [istep, iget, iidx_spec h hw0 hp, ok_bind, get_spec h.items hs0 (h.lt _ (List.getElem_mem hp))]
    simp [look, List.getD_eq_getElem?_getD, h.lt _ (List.getElem_mem hp), pure_eq_ok]
  | insert x pos a1 a2 =>
    have hp : pos ≤ idxs.length := by rw [← hcc]; exact hop.2
    rcases iinsert_spec h hw hic hs hlt a1 a2 x hop.1 hp with ⟨l', h1, h2, h3⟩ | ⟨l', h1, h2, h3⟩
    · refine ⟨l', _, _, _, by simp only [istep, h1]; rfl, by rw [h3]; exact .insert (by omega), h2, by simp, ?_⟩
      rw [hcnt h2]; simp; omega
    · exact ⟨l', _, _, _, by simp only [istep, h2]; rfl, .insertFail (by omega) h1, h3, by omega, by rw [hcnt h3]; omega⟩
  | delete i =>
    have hp : i < idxs.length := by rw [← hcc]; exact hop
    obtain ⟨ix, d1, d2, _, d4⟩ := delete_spec h.index hw0 (i := i) (by simpa using hp)
    refine ⟨{ l with index := ix }, .unit, idxs.eraseIdx i, vals, by simp only [istep, idelete, d1]; rfl, ?_,
      ⟨by rw [map_eraseIdx']; exact d2, h.items, h.nodup.eraseIdx i,
        fun j hj => h.lt j (List.mem_of_mem_eraseIdx hj), h.fit⟩, by omega, ?_⟩
    · have : look vals (idxs.eraseIdx i) = (look vals idxs).eraseIdx i := map_eraseIdx' _ _ _
      rw [this]
      exact .delete (by omega)
    · show ix.count ≤ _
      omega
  | getsize =>
    refine ⟨l, _, idxs, vals, rfl, ?_, h, by omega, hic⟩
    rw [hcc, ← hlk]; exact .getsize

theorem irun_spec {w isz} : ∀ (ops : List IOp) (l : TGI) (idxs : List Nat) (vals : List (List Byte)),
    IRep w isz l idxs vals → l.index.count ≤ vals.length →
    (2 * (vals.length + ops.length) + 4) * w < 2^64 → (2 * (vals.length + ops.length) + 4) * isz < 2^64 →
    vals.length + ops.length ≤ 256^w → IValid w isz l ops →
    ∃ l' rs idxs' vals', irun w isz l ops = .ok (l', rs) ∧ ISteps (look vals idxs) ops (look vals' idxs') rs ∧
      IRep w isz l' idxs' vals' ∧ vals'.length ≤ vals.length + ops.length ∧ l'.index.count ≤ vals'.length
  | [], l, idxs, vals, h, hic, _, _, _, hv => ⟨l, [], idxs, vals, rfl, .nil, h, by simp, hic⟩
  | op :: ops, l, idxs, vals, h, hic, hw, hs, hf, hv => by
    simp only [List.length_cons] at hw hs hf
    obtain ⟨l1, r, i1, v1, h1, h2, h3, h4, h5⟩ := istep_spec h (mul_lt_of hw (by omega)) hic (mul_lt_of hs (by omega))
      (by omega) op (hv [] op ops rfl l [] rfl)
    obtain ⟨l2, rs, i2, v2, r1, r2, r3, r4, r5⟩ := irun_spec ops l1 i1 v1 h3 h5
      (mul_lt_of hw (by omega)) (mul_lt_of hs (by omega)) (by omega) (by
        intro pre op' post he l' rs hr
        exact hv (op :: pre) op' post (by rw [he]; rfl) l' (r :: rs) (by
          simp only [irun, h1, ok_bind, hr]; rfl))
    exact ⟨l2, r :: rs, i2, v2, by simp only [irun, h1, ok_bind, r1]; rfl, .cons h2 r2, r3, by simp; omega, r5⟩

theorem leVal_leBytes_mod : ∀ (w n : Nat), leVal (leBytes w n) = n % 256^w
  | 0, n => by simp [leBytes, leVal, Nat.mod_one]
  | w + 1, n => by
    simp only [leBytes, leVal]
    rw [leVal_leBytes_mod w, Nat.pow_succ, Nat.mul_comm (256^w), Nat.mod_mul]
    simp only [BitVec.toNat_ofNat]

theorem iinit_rep {w isz} (hw : 0 < w) (hi : 0 < isz) : IRep w isz iinit [] [] :=
  ⟨init_rep hw, init_rep hi, List.nodup_nil, by simp, by simp⟩

theorem iadd_all {w isz} (hw : 0 < w) (hi : 0 < isz) (f g : Nat → Byte) : ∀ (xs : List (List Byte)),
    (∀ x ∈ xs, x.length = isz) → (2 * xs.length + 4) * w < 2^64 → (2 * xs.length + 4) * isz < 2^64 →
    xs.length ≤ 256^w → ∀ (l : TGI) (vals : List (List Byte)), IRep w isz l (List.range vals.length) vals →
    (2 * (vals.length + xs.length) + 4) * w < 2^64 → (2 * (vals.length + xs.length) + 4) * isz < 2^64 →
    vals.length + xs.length ≤ 256^w →
    ∃ l' rs, irun w isz l (xs.map fun x => .add x (some f) (some g)) = .ok (l', rs) ∧
      IRep w isz l' (List.range (vals ++ xs).length) (vals ++ xs)
  | [], _, _, _, _, l, vals, h, _, _, _ => ⟨l, [], rfl, by simpa using h⟩
  | x :: xs, hx, h1, h2, h3, l, vals, h, b1, b2, b3 => by
    simp only [List.length_cons] at h1 h2 h3 b1 b2 b3
    have hcc : l.index.count = vals.length := by have := h.index.count; simpa using this
    rcases iadd_spec h (mul_lt_of b1 (by omega)) (by omega) (mul_lt_of b2 (by omega)) (by omega) (some f) (some g) x
      (hx x (by simp)) with ⟨l', r1, r2, _⟩ | ⟨l', r1, _⟩
    · obtain ⟨l2, rs, s1, s2⟩ := iadd_all hw hi f g xs (fun y hy => hx y (by simp [hy])) (mul_lt_of h1 (by omega))
        (mul_lt_of h2 (by omega)) (by omega) l' (vals ++ [x]) (by rw [List.length_append]; simpa [List.range_succ] using r2)
        (mul_lt_of b1 (by simp; omega)) (mul_lt_of b2 (by simp; omega)) (by simp; omega)
      refine ⟨l2, .int 1 :: rs, ?_, by simpa using s2⟩
      simp only [List.map_cons, irun, istep, r1, ok_bind, pure_eq_ok, s1]
    · simp at r1

/-! A checker for `IValid`, used for the examples. -/
instance (isz len : Nat) (op : IOp) : Decidable (IOpOk isz len op) := by
  cases op <;> simp only [IOpOk] <;> infer_instance

def ivalidB (w isz : Nat) (l : TGI) : List IOp → Bool
  | [] => true
  | op :: ops => decide (IOpOk isz l.index.count op) &&
    match istep w isz l op with
    | .ok (l', _) => ivalidB w isz l' ops
    | .error _ => true

theorem ivalidB_sound {w isz} : ∀ (ops : List IOp) (l : TGI), ivalidB w isz l ops = true → IValid w isz l ops
  | [], l, _ => by intro pre op post he; simp at he
  | op :: ops, l, h => by
    simp only [ivalidB, Bool.and_eq_true, decide_eq_true_eq] at h
    intro pre op' post he l' rs hr
    cases pre with
    | nil => cases he; cases hr; exact h.1
    | cons p pre =>
      cases he
      simp only [irun] at hr
      cases hs : istep w isz l op with
      | error e => rw [hs] at hr; cases hr
      | ok v =>
        obtain ⟨l1, r⟩ := v
        rw [hs] at hr
        simp only [ok_bind] at hr
        have h2 := h.2
        rw [hs] at h2
        cases hr2 : irun w isz l1 pre with
        | error e => rw [hr2] at hr; cases hr
        | ok v =>
          obtain ⟨l2, rs2⟩ := v
          rw [hr2] at hr
          cases hr
          exact ivalidB_sound _ l1 h2 pre op' post rfl _ _ hr2

theorem insert_full {isz} {l : TG} (hf : l.count = l.capa) (x : List Byte) (pos : Nat) :
    insert isz none l x pos = .ok (l, 0) := by
  simp [Tglist.insert, grow_if_needed, hf, realloc, pure_eq_ok]

theorem insert_sorted_full {isz} {l : TG} (hf : l.count = l.capa) {o cmp l' p}
    (h : insert_sorted isz none l o cmp = .ok (l', some p)) : False := by
  unfold insert_sorted at h
  cases e : sortedIndex isz l o cmp with
  | error e' => rw [e] at h; cases h
  | ok q =>
    rw [e] at h
    simp only [ok_bind, insert_full hf] at h
    cases h

end Ulz.Tglist

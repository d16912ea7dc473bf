import Verif.Spec.Cost
import Verif.Proofs.Sblist
import Verif.Proofs.Tglist
import Verif.Proofs.Frame
/-! Lemmas about numbers of comparisons and buffer sizes. -/
namespace Ulz.Cost
open Spec
open Ulz.Frame (bind_ok)

variable {σ : Type}

theorem log2_half {w v : Nat} (hw : 2 ≤ w) (hv : v ≤ max 1 (w / 2)) : Nat.log2 v + 1 ≤ Nat.log2 w := by
  have h : Nat.log2 w = Nat.log2 (w / 2) + 1 := by
    rw [Nat.log2_def, if_pos hw]
  have h2 : v ≤ w / 2 := by omega
  have h3 : Nat.log2 v ≤ Nat.log2 (w / 2) := by
    by_cases h0 : v = 0
    · subst h0; simp
    · rw [Nat.le_log2 (by omega)]
      exact Nat.le_trans (Nat.log2_self_le h0) h2
  omega

/-- The loop with any comparison. -/
theorem sortedPos_any (item : Nat → C (List Byte)) (xs : List (List Byte)) (hitem : ∀ i (h : i < xs.length), item i = .ok xs[i]) (o : List Byte)
    (compar : σ → List Byte → List Byte → Int × σ) : ∀ (fuel hi lo : Nat) (s : σ), hi ≤ lo → lo < xs.length → Nat.log2 (lo - hi + 1) < fuel →
    ∃ p s' log, sortedPos item o compar fuel hi lo s = .ok (p, s', log) ∧ p ≤ xs.length ∧ 1 ≤ log.length ∧
      log.length ≤ Nat.log2 (lo - hi + 1) + 1 ∧ (∀ x ∈ log, x ∈ xs) ∧
      ((∀ s, ∀ x ∈ xs, (compar s o x).1 > 0) → log.length = Nat.log2 (lo - hi + 1) + 1 ∧ p = lo + 1)
  | 0, _, _, _, _, _, h => by omega
  | fuel + 1, hi, lo, s, hle, hlo, hf => by
    rw [sortedPos]
    simp only
    generalize hc : hi + (lo - hi) / 2 = c
    have hcx : c < xs.length := by omega
    rw [hitem c hcx, ok_bindE]
    generalize hcmp : compar s o xs[c] = q
    obtain ⟨r, s1⟩ := q
    simp only
    have hpos : (∀ s, ∀ x ∈ xs, (compar s o x).1 > 0) → r > 0 := by
      intro h
      have := h s xs[c] (List.getElem_mem _)
      rw [hcmp] at this
      exact this
    by_cases he : hi = lo
    · rw [if_pos he]
      refine ⟨_, _, _, rfl, by split <;> omega, by simp, by simp, ?_, ?_⟩
      · intro x hx
        rw [List.mem_singleton] at hx
        rw [hx]; exact List.getElem_mem _
      · intro h
        rw [if_pos (hpos h)]
        subst he
        exact ⟨by rw [Nat.sub_self]; rfl, rfl⟩
    · rw [if_neg he]
      have hstep : ∃ qh ql, (if r < 0 then (hi, if c ≠ 0 then c - 1 else 0) else if r > 0 then (c + 1, lo) else (c, c) : Nat × Nat) = (qh, ql) ∧
          ((r < 0 ∧ qh = hi ∧ ql = c - 1) ∨ (r > 0 ∧ qh = c + 1 ∧ ql = lo) ∨ (r = 0 ∧ qh = c ∧ ql = c)) := by
        by_cases h1 : r < 0
        · rw [if_pos h1]
          refine ⟨_, _, rfl, .inl ⟨h1, rfl, ?_⟩⟩
          split <;> omega
        · rw [if_neg h1]
          by_cases h2 : r > 0
          · rw [if_pos h2]; exact ⟨_, _, rfl, .inr (.inl ⟨h2, rfl, rfl⟩)⟩
          · rw [if_neg h2]; exact ⟨_, _, rfl, .inr (.inr ⟨by omega, rfl, rfl⟩)⟩
      obtain ⟨qh, ql, e, hq⟩ := hstep
      rw [e]
      simp only
      generalize e2 : (if qh > ql then ql else qh) = hi'
      have h1 : hi' ≤ ql := by split at e2 <;> omega
      have h2 : ql < xs.length := by omega
      have h3 : ql - hi' + 1 ≤ max 1 ((lo - hi + 1) / 2) := by split at e2 <;> omega
      have h4 : r > 0 → ql = lo ∧ hi' = c + 1 := by intro h; split at e2 <;> omega
      have hlog := log2_half (w := lo - hi + 1) (by omega) h3
      obtain ⟨p, s', log, e1, r1, r2, r3, r4, r5⟩ := sortedPos_any item xs hitem o compar fuel hi' ql s1 h1 h2 (by omega)
      rw [e1, ok_bindE]
      refine ⟨p, s', xs[c] :: log, rfl, r1, by simp, by simp; omega, ?_, ?_⟩
      · intro x hx
        rcases List.mem_cons.1 hx with rfl | hx
        · exact List.getElem_mem _
        · exact r4 x hx
      · intro h
        obtain ⟨a1, a2⟩ := r5 h
        obtain ⟨b1, b2⟩ := h4 (hpos h)
        refine ⟨?_, by rw [a2, b1]⟩
        have : Nat.log2 (lo - hi + 1) = Nat.log2 ((lo - hi + 1) / 2) + 1 := by rw [Nat.log2_def, if_pos (by omega)]
        rw [List.length_cons, a1, this, show (lo - hi + 1) / 2 = ql - hi' + 1 by omega]

theorem log2_lt_succ (n : Nat) : Nat.log2 n < n + 1 := by
  by_cases h : n = 0
  · subst h; decide
  · have : n < 2^n := Nat.lt_two_pow_self
    have := (Nat.log2_lt h).2 this
    omega

theorem sortedIndex_any (item : Nat → C (List Byte)) (xs : List (List Byte)) (hitem : ∀ i (h : i < xs.length), item i = .ok xs[i]) (o : List Byte)
    (compar : σ → List Byte → List Byte → Int × σ) (s : σ) :
    ∃ p s' log, sortedIndex xs.length item o compar s = .ok (p, s', log) ∧ p ≤ xs.length ∧
      log.length ≤ (if xs = [] then 0 else Nat.log2 xs.length + 1) ∧ (∀ x ∈ log, x ∈ xs) ∧
      ((∀ s, ∀ x ∈ xs, (compar s o x).1 > 0) → log.length = (if xs = [] then 0 else Nat.log2 xs.length + 1) ∧ p = xs.length) := by
  unfold sortedIndex
  by_cases h : xs = []
  · subst h
    exact ⟨0, s, [], rfl, by simp, by simp, by simp, fun _ => ⟨rfl, rfl⟩⟩
  · have hl : 0 < xs.length := List.length_pos_iff.2 h
    rw [if_neg (by omega)]
    have hw : xs.length - 1 - 0 + 1 = xs.length := by omega
    obtain ⟨p, s', log, e, r1, r2, r3, r4, r5⟩ := sortedPos_any item xs hitem o compar (xs.length + 1) 0 (xs.length - 1) s (by omega) (by omega)
      (by rw [hw]; exact log2_lt_succ _)
    rw [hw] at r3 r5
    refine ⟨p, s', log, e, r1, by rw [if_neg h]; exact r3, r4, fun h' => ?_⟩
    obtain ⟨a1, a2⟩ := r5 h'
    exact ⟨by rw [if_neg h]; exact a1, by omega⟩

/-! ### A comparison without state -/

theorem sortedPos_pure (item : Nat → C (List Byte)) (o : List Byte) (cmp : List Byte → List Byte → Int) (l : Sblist.SB)
    (hitem : item = fun i => Sblist.deref l (Sblist.get l i)) : ∀ (fuel hi lo : Nat) (s : σ),
    (sortedPos item o (fun s x y => (cmp x y, s)) fuel hi lo s).map (fun q => (q.1, q.2.1)) = (Sblist.sortedPos l o cmp fuel hi lo).map (fun p => (p, s))
  | 0, _, _, _ => rfl
  | fuel + 1, hi, lo, s => by
    rw [sortedPos, Sblist.sortedPos]
    simp only
    rw [hitem]
    simp only
    cases Sblist.deref l (Sblist.get l (hi + (lo - hi) / 2)) with
    | error e => rfl
    | ok p =>
      simp only [ok_bindE]
      by_cases he : hi = lo
      · rw [if_pos he, if_pos he]; rfl
      · rw [if_neg he, if_neg he]
        generalize (if cmp o p < 0 then _ else _ : Nat × Nat) = q
        obtain ⟨qh, ql⟩ := q
        simp only
        have ih := sortedPos_pure item o cmp l hitem fuel (if qh > ql then ql else qh) ql s
        rw [hitem] at ih
        rw [← ih]
        generalize sortedPos _ o _ fuel _ ql s = z
        cases z <;> rfl

theorem sortedPos_pureT (item : Nat → C (List Byte)) (o : List Byte) (cmp : List Byte → List Byte → Int) (isz : Nat) (l : Tglist.TG)
    (hitem : item = Tglist.get isz l) : ∀ (fuel hi lo : Nat) (s : σ),
    (sortedPos item o (fun s x y => (cmp x y, s)) fuel hi lo s).map (fun q => (q.1, q.2.1)) = (Tglist.sortedPos isz l o cmp fuel hi lo).map (fun p => (p, s))
  | 0, _, _, _ => rfl
  | fuel + 1, hi, lo, s => by
    rw [sortedPos, Tglist.sortedPos]
    simp only
    rw [hitem]
    cases Tglist.get isz l (hi + (lo - hi) / 2) with
    | error e => rfl
    | ok p =>
      simp only [ok_bindE]
      by_cases he : hi = lo
      · rw [if_pos he, if_pos he]; rfl
      · rw [if_neg he, if_neg he]
        generalize (if cmp o p < 0 then _ else _ : Nat × Nat) = q
        obtain ⟨qh, ql⟩ := q
        simp only
        have ih := sortedPos_pureT item o cmp isz l hitem fuel (if qh > ql then ql else qh) ql s
        rw [hitem] at ih
        rw [← ih]
        generalize sortedPos _ o _ fuel _ ql s = z
        cases z <;> rfl

/-! ### Buffer sizes -/

/-- `g m` is the capacity after `m` changes. `m` changes are what `p` items need. -/
def Need (g : Nat → Nat) (p m : Nat) : Prop := p ≤ g m ∧ (m = 0 ∨ g (m - 1) < p)

theorem sb_set_capa {l l' : Sblist.SB} {x : List Byte} {pos r : Nat} (h : Sblist.set l x pos = .ok (l', r)) :
    l'.capa = l.capa ∧ l'.count = l.count := by
  unfold Sblist.set at h
  split at h
  · cases h; exact ⟨rfl, rfl⟩
  · obtain ⟨y, _, h⟩ := bind_ok.1 h
    obtain ⟨z, _, h⟩ := bind_ok.1 h
    cases h
    exact ⟨rfl, rfl⟩

theorem sb_grow_capa {a : Alloc} {l l' : Sblist.SB} {r : Nat} (h : Sblist.grow_if_needed a l = (l', r)) :
    (l' = l) ∨ (l.count = l.capa ∧ l'.capa = l.capa + l.blockitems ∧ l'.count = l.count ∧ r ≠ 0) := by
  unfold Sblist.grow_if_needed at h
  split at h
  · split at h
    · cases h; exact .inl rfl
    · rename_i hc _ _ _
      cases h; exact .inr ⟨hc, rfl, rfl, by omega⟩
  · cases h; exact .inl rfl

/-- A call keeps the capacity, or adds a block to a full list and an item. -/
def SbCapa (l l' : Sblist.SB) : Prop :=
  l'.capa = l.capa ∨ (l.count = l.capa ∧ l'.capa = l.capa + l.blockitems ∧ l'.count = l.count + 1)

theorem sb_after {a : Alloc} {l l1 l2 : Sblist.SB} {ok r : Nat} {x : List Byte} {pos : Nat} {items : List Byte}
    (hg : Sblist.grow_if_needed a l = (l1, ok)) (hs : Sblist.set { l1 with items := items, count := l1.count + 1 } x pos = .ok (l2, r)) :
    SbCapa l l2 := by
  have := sb_set_capa hs
  rcases sb_grow_capa hg with rfl | ⟨h0, h1, h2, _⟩
  · exact .inl this.1
  · exact .inr ⟨h0, this.1.trans h1, by rw [this.2, ← h2]⟩

theorem sb_delete_capa {l l' : Sblist.SB} {i : Nat} (h : Sblist.delete l i = .ok l') : l'.capa = l.capa := by
  unfold Sblist.delete at h
  split at h
  · obtain ⟨z, _, h⟩ := bind_ok.1 h
    cases h; rfl
  · cases h; rfl

theorem sb_step_capa {l l' : Sblist.SB} {op : Sblist.Op} {r : Sblist.Res} (h : Sblist.step l op = .ok (l', r)) : SbCapa l l' := by
  cases op with
  | add x a =>
    simp only [Sblist.step, Sblist.add] at h
    generalize hg : Sblist.grow_if_needed a l = q at h
    obtain ⟨l1, ok⟩ := q
    have hc := sb_grow_capa hg
    simp only at h
    split at h
    · rename_i hok
      cases h
      rcases hc with rfl | ⟨_, _, _, h2⟩
      · exact .inl rfl
      · exact absurd hok h2
    · obtain ⟨⟨l2, r2⟩, hs, h⟩ := bind_ok.1 h
      cases h
      exact sb_after hg hs
  | addi x a =>
    simp only [Sblist.step, Sblist.addi] at h
    generalize hg : Sblist.grow_if_needed a l = q at h
    obtain ⟨l1, ok⟩ := q
    have hc := sb_grow_capa hg
    simp only at h
    split at h
    · rename_i hok
      cases h
      rcases hc with rfl | ⟨_, _, _, h2⟩
      · exact .inl rfl
      · exact absurd hok h2
    · obtain ⟨⟨l2, r2⟩, hs, h⟩ := bind_ok.1 h
      obtain ⟨⟨l3, r3⟩, hs', hs⟩ := bind_ok.1 hs
      cases hs
      cases h
      exact sb_after hg hs'
  | set x pos =>
    obtain ⟨⟨l2, r2⟩, hs, h⟩ := bind_ok.1 h
    cases h
    exact .inl (sb_set_capa hs).1
  | get i =>
    obtain ⟨z, _, h⟩ := bind_ok.1 h
    cases h
    exact .inl rfl
  | insert x pos a =>
    simp only [Sblist.step, Sblist.insert] at h
    generalize hg : Sblist.grow_if_needed a l = q at h
    obtain ⟨l1, ok⟩ := q
    have hc := sb_grow_capa hg
    simp only at h
    split at h
    · rename_i hok
      cases h
      rcases hc with rfl | ⟨_, _, _, h2⟩
      · exact .inl rfl
      · exact absurd hok h2
    · obtain ⟨⟨l2, r2⟩, hs, h⟩ := bind_ok.1 h
      obtain ⟨items, _, hs⟩ := bind_ok.1 hs
      cases h
      exact sb_after hg hs
  | delete i =>
    obtain ⟨z, hs, h⟩ := bind_ok.1 h
    cases h
    exact .inl (sb_delete_capa hs)
  | pop =>
    obtain ⟨⟨l2, p⟩, hs, h⟩ := bind_ok.1 h
    obtain ⟨z, _, h⟩ := bind_ok.1 h
    cases h
    unfold Sblist.pop at hs
    split at hs
    · obtain ⟨l3, hd, hs⟩ := bind_ok.1 hs
      cases hs
      exact .inl (sb_delete_capa hd)
    · cases hs; exact .inl rfl

/-- Capacity changes of a history, for lists whose capacity after `m` changes is `g m`. -/
theorem need_keep {g : Nat → Nat} {p m q : Nat} (h : Need g p m) (hpq : p ≤ q) (hq : q ≤ g m) : Need g q m :=
  ⟨hq, h.2.imp id fun h => by omega⟩

theorem need_grow {g : Nat → Nat} {p m : Nat} (hg : g m < g (m + 1)) (h : g m ≤ p) (h' : p ≤ g m) : Need g (p + 1) (m + 1) :=
  ⟨by omega, .inr (by simpa using by omega)⟩

theorem sb_history (b isz : Nat) (hb : 0 < b) (hi : 0 < isz) : ∀ (ops : List Sblist.Op) (l : Sblist.SB) (xs : List (List Byte)) (p m : Nat),
    Sblist.Spec.Rep l xs → l.blockitems = b → l.itemsize = isz → (l.count + ops.length + b) * isz < 2^64 → Sblist.Spec.Valid l ops →
    l.capa = b * m → l.count ≤ p → Need (b * ·) p m →
    ∃ l' rs m', Sblist.run l ops = .ok (l', rs) ∧ l'.items.length = b * m' * isz ∧ m ≤ m' ∧ Need (b * ·) (max p (sbPeak l ops)) m' ∧
      sbBuffers l ops = (List.range (m' - m)).map fun i => b * (m + i + 1) * isz
  | [], l, xs, p, m, h, h1, h2, h3, hv, hc, hp, hn => by
    refine ⟨l, [], m, rfl, ?_, Nat.le_refl _, ?_, by simp [sbBuffers]⟩
    · rw [h.items_length, hc, h2]
    · rw [sbPeak, Nat.max_eq_left hp]; exact hn
  | op :: ops, l, xs, p, m, h, h1, h2, h3, hv, hc, hp, hn => by
    rw [List.length_cons] at h3
    obtain ⟨l1, r, ys, e1, _, h4, h5, h6, h7⟩ := Sblist.step_spec h (by omega) (by rw [h1, h2]; exact Sblist.mul_lt_of h3 (by omega)) op
      (hv [] op ops rfl l [] rfl)
    have hv1 : Sblist.Spec.Valid l1 ops := by
      intro pre o post hpre l2 rs hr
      rw [h5]
      refine hv (op :: pre) o post (by rw [hpre]; rfl) l2 (r :: rs) ?_
      simp only [Sblist.run]
      rw [e1, ok_bindE, hr]; rfl
    have hb1 : (l1.count + ops.length + b) * isz < 2^64 := Sblist.mul_lt_of h3 (by omega)
    have hcap := h4.capa
    have hil := h.items_length
    have hil1 := h4.items_length
    have hpk : max p (max l.count (sbPeak l1 ops)) = max (max p l1.count) (sbPeak l1 ops) := by
      have : l1.count ≤ sbPeak l1 ops := by
        cases ops with
        | nil => exact Nat.le_refl _
        | cons o os => rw [sbPeak]; split <;> omega
      omega
    rcases sb_step_capa e1 with hk | ⟨k1, k2, k3⟩
    · have hn1 : Need (b * ·) (max p l1.count) m := need_keep hn (by omega) (by have : p ≤ b * m := hn.1; show max p l1.count ≤ b * m; omega)
      obtain ⟨l', rs, m', f1, f2, f3, f4, f5⟩ := sb_history b isz hb hi ops l1 ys (max p l1.count) m h4 (h6.trans h1) (h5.trans h2) hb1 hv1
        (hk.trans hc) (by omega) hn1
      refine ⟨l', r :: rs, m', ?_, f2, f3, ?_, ?_⟩
      · simp only [Sblist.run]; rw [e1, ok_bindE, f1]; rfl
      · rw [sbPeak, e1]; simp only; rw [hpk]; exact f4
      · rw [sbBuffers, e1]; simp only
        rw [if_pos (by rw [hil, hil1, hk, h5]), List.nil_append, f5]
    · have hpe : p = b * m := by have : p ≤ b * m := hn.1; omega
      have hlt : b * m < b * (m + 1) := Nat.mul_lt_mul_of_pos_left (by omega) hb
      have hn1 : Need (b * ·) (p + 1) (m + 1) := need_grow (g := (b * ·)) hlt (by omega) (by omega)
      have hmx : max p l1.count = p + 1 := by omega
      have hc1 : l1.capa = b * (m + 1) := by rw [k2, h1, hc, Nat.mul_succ]
      obtain ⟨l', rs, m', f1, f2, f3, f4, f5⟩ := sb_history b isz hb hi ops l1 ys (p + 1) (m + 1) h4 (h6.trans h1) (h5.trans h2) hb1 hv1
        hc1 (by omega) hn1
      refine ⟨l', r :: rs, m', ?_, f2, by omega, ?_, ?_⟩
      · simp only [Sblist.run]; rw [e1, ok_bindE, f1]; rfl
      · rw [sbPeak, e1]; simp only; rw [hpk, hmx]; exact f4
      · have hne : l1.items.length ≠ l.items.length := by
          rw [hil, hil1, h5, h2, hc1, hc]
          have := Nat.mul_lt_mul_of_pos_right hlt hi
          omega
        rw [sbBuffers, e1]; simp only
        rw [if_neg hne, f5, show m' - m = (m' - (m + 1)) + 1 by omega, List.range_succ_eq_map, List.map_cons, List.map_map, hil1, h5, h2, hc1]
        simp only [List.singleton_append, Nat.add_zero]
        congr 1
        apply List.map_congr_left
        intro i _
        show b * (m + 1 + i + 1) * isz = b * (m + (i + 1) + 1) * isz
        congr 2; omega

/-! ### The same for tglist -/

theorem tg_set_capa {isz : Nat} {l l' : Tglist.TG} {x : List Byte} {pos r : Nat} (h : Tglist.set isz l x pos = .ok (l', r)) :
    l'.capa = l.capa ∧ l'.count = l.count := by
  unfold Tglist.set at h
  obtain ⟨y, _, h⟩ := bind_ok.1 h
  obtain ⟨z, _, h⟩ := bind_ok.1 h
  cases h
  exact ⟨rfl, rfl⟩

theorem tg_memmove_capa {isz : Nat} {l l' : Tglist.TG} {pos : Nat} {d : Int} (h : Tglist.memmove_impl isz l pos d = .ok l') :
    l'.capa = l.capa ∧ l'.count = l.count := by
  unfold Tglist.memmove_impl at h
  obtain ⟨y, _, h⟩ := bind_ok.1 h
  cases h
  exact ⟨rfl, rfl⟩

theorem tg_grow_capa {isz : Nat} {a : Alloc} {l l' : Tglist.TG} {r : Nat} (h : Tglist.grow_if_needed isz a l = (l', r)) :
    (l' = l) ∨ (l.count = l.capa ∧ l'.capa = (if l.capa = 0 then 4 else szt (l.capa * 2)) ∧ l'.count = l.count ∧ r ≠ 0) := by
  unfold Tglist.grow_if_needed at h
  by_cases hc : l.count = l.capa
  · rw [if_pos hc] at h
    simp only at h
    generalize (if l.capa = 0 then 4 else szt (l.capa * 2)) = n at h ⊢
    cases hr : realloc a l.items (szt (n * isz)) with
    | none => rw [hr] at h; cases h; exact .inl rfl
    | some t => rw [hr] at h; cases h; exact .inr ⟨hc, rfl, rfl, by omega⟩
  · rw [if_neg hc] at h
    cases h; exact .inl rfl

/-- A call keeps the capacity, or doubles that of a full list (4 if it has none) and adds an item. -/
def TgCapa (l l' : Tglist.TG) : Prop :=
  l'.capa = l.capa ∨ (l.count = l.capa ∧ l'.capa = (if l.capa = 0 then 4 else szt (l.capa * 2)) ∧ l'.count = l.count + 1)

theorem tg_after {isz : Nat} {a : Alloc} {l l1 l2 : Tglist.TG} {ok r : Nat} {x : List Byte} {pos : Nat} {items : List Byte}
    (hg : Tglist.grow_if_needed isz a l = (l1, ok)) (hs : Tglist.set isz { l1 with items := items, count := l1.count + 1 } x pos = .ok (l2, r)) :
    TgCapa l l2 := by
  have := tg_set_capa hs
  rcases tg_grow_capa hg with rfl | ⟨h0, h1, h2, _⟩
  · exact .inl this.1
  · exact .inr ⟨h0, this.1.trans h1, by rw [this.2, ← h2]⟩

theorem tg_step_capa {isz : Nat} {l l' : Tglist.TG} {op : Tglist.Op} {r : Tglist.Res} (h : Tglist.step isz l op = .ok (l', r)) : TgCapa l l' := by
  cases op with
  | add x a =>
    simp only [Tglist.step, Tglist.add] at h
    generalize hg : Tglist.grow_if_needed isz a l = q at h
    obtain ⟨l1, ok⟩ := q
    have hc := tg_grow_capa hg
    simp only at h
    split at h
    · rename_i hok
      cases h
      rcases hc with rfl | ⟨_, _, _, h2⟩
      · exact .inl rfl
      · exact absurd hok h2
    · obtain ⟨⟨l2, r2⟩, hs, h⟩ := bind_ok.1 h
      cases h
      exact tg_after hg hs
  | set x pos =>
    obtain ⟨⟨l2, r2⟩, hs, h⟩ := bind_ok.1 h
    cases h
    exact .inl (tg_set_capa hs).1
  | get i =>
    obtain ⟨z, _, h⟩ := bind_ok.1 h
    cases h
    exact .inl rfl
  | insert x pos a =>
    simp only [Tglist.step, Tglist.insert] at h
    generalize hg : Tglist.grow_if_needed isz a l = q at h
    obtain ⟨l1, ok⟩ := q
    have hc := tg_grow_capa hg
    simp only at h
    split at h
    · rename_i hok
      cases h
      rcases hc with rfl | ⟨_, _, _, h2⟩
      · exact .inl rfl
      · exact absurd hok h2
    · obtain ⟨⟨l2, r2⟩, hs, h⟩ := bind_ok.1 h
      obtain ⟨l3, hm, hs⟩ := bind_ok.1 hs
      cases h
      have hm := tg_memmove_capa hm
      obtain ⟨c3, k3, i3⟩ := l3
      obtain ⟨hm1, hm2⟩ := hm
      simp only at hm1 hm2 hs
      subst hm1 hm2
      exact tg_after hg hs
  | delete i =>
    obtain ⟨z, hs, h⟩ := bind_ok.1 h
    cases h
    unfold Tglist.delete at hs
    obtain ⟨l3, hm, hs⟩ := bind_ok.1 hs
    have hz : l' = { l3 with count := sztSub l3.count 1 } := (Except.ok.inj hs).symm
    rw [hz]
    exact .inl (tg_memmove_capa hm).1
  | getsize => cases h; exact .inl rfl

theorem tg_history (isz : Nat) (hi : 0 < isz) : ∀ (ops : List Tglist.Op) (l : Tglist.TG) (xs : List (List Byte)) (p m : Nat),
    Tglist.Spec.Rep isz l xs → (2 * (l.count + ops.length) + 4) * isz < 2^64 → Tglist.Spec.Valid isz l ops →
    l.capa = tgCapa m → l.count ≤ p → Need tgCapa p m →
    ∃ l' rs m', Tglist.run isz l ops = .ok (l', rs) ∧ l'.items.length = tgCapa m' * isz ∧ m ≤ m' ∧ Need tgCapa (max p (tgPeak isz l ops)) m' ∧
      tgBuffers isz l ops = (List.range (m' - m)).map fun i => tgCapa (m + i + 1) * isz
  | [], l, xs, p, m, h, h3, hv, hc, hp, hn => by
    refine ⟨l, [], m, rfl, ?_, Nat.le_refl _, ?_, by simp [tgBuffers]⟩
    · rw [h.items_length, hc]
    · rw [tgPeak, Nat.max_eq_left hp]; exact hn
  | op :: ops, l, xs, p, m, h, h3, hv, hc, hp, hn => by
    rw [List.length_cons] at h3
    have h3' : (2 * l.count + 4) * isz < 2^64 := Sblist.mul_lt_of h3 (by omega)
    obtain ⟨l1, r, ys, e1, _, h4, _, h7⟩ := Tglist.step_spec h h3' op (hv [] op ops rfl l [] rfl)
    have hv1 : Tglist.Spec.Valid isz l1 ops := by
      intro pre o post hpre l2 rs hr
      refine hv (op :: pre) o post (by rw [hpre]; rfl) l2 (r :: rs) ?_
      simp only [Tglist.run]
      rw [e1, ok_bindE, hr]; rfl
    have hb1 : (2 * (l1.count + ops.length) + 4) * isz < 2^64 := Sblist.mul_lt_of h3 (by omega)
    have hcap := h4.capa
    have hil := h.items_length
    have hil1 := h4.items_length
    have hpk : max p (max l.count (tgPeak isz l1 ops)) = max (max p l1.count) (tgPeak isz l1 ops) := by
      have : l1.count ≤ tgPeak isz l1 ops := by
        cases ops with
        | nil => exact Nat.le_refl _
        | cons o os => rw [tgPeak]; split <;> omega
      omega
    rcases tg_step_capa e1 with hk | ⟨k1, k2, k3⟩
    · have hn1 : Need tgCapa (max p l1.count) m := need_keep hn (by omega) (by have := hn.1; omega)
      obtain ⟨l', rs, m', f1, f2, f3, f4, f5⟩ := tg_history isz hi ops l1 ys (max p l1.count) m h4 hb1 hv1
        (hk.trans hc) (by omega) hn1
      refine ⟨l', r :: rs, m', ?_, f2, f3, ?_, ?_⟩
      · simp only [Tglist.run]; rw [e1, ok_bindE, f1]; rfl
      · rw [tgPeak, e1]; simp only; rw [hpk]; exact f4
      · rw [tgBuffers, e1]; simp only
        rw [if_pos (by rw [hil, hil1, hk]), List.nil_append, f5]
    · have hpe : p = tgCapa m := by have := hn.1; omega
      have h64 : (2 * l.count + 4) * 1 ≤ (2 * l.count + 4) * isz := Nat.mul_le_mul_left _ hi
      have hc1 : l1.capa = tgCapa (m + 1) := by
        rw [k2]
        cases m with
        | zero => rw [hc]; rfl
        | succ k =>
          have : tgCapa (k + 1 + 1) = l.capa * 2 := by rw [hc]; simp only [tgCapa, Nat.pow_succ]; omega
          have h0 : 0 < l.capa := by rw [hc]; simp only [tgCapa]; have := Nat.two_pow_pos k; omega
          rw [if_neg (by omega), this, szt_of_lt (by omega)]
      have hlt : tgCapa m < tgCapa (m + 1) := by
        rw [← hc, ← hc1, k2]
        split
        · omega
        · rw [szt_of_lt (by omega)]; omega
      have hn1 : Need tgCapa (p + 1) (m + 1) := need_grow hlt (by omega) (by omega)
      have hmx : max p l1.count = p + 1 := by omega
      obtain ⟨l', rs, m', f1, f2, f3, f4, f5⟩ := tg_history isz hi ops l1 ys (p + 1) (m + 1) h4 hb1 hv1 hc1 (by omega) hn1
      refine ⟨l', r :: rs, m', ?_, f2, by omega, ?_, ?_⟩
      · simp only [Tglist.run]; rw [e1, ok_bindE, f1]; rfl
      · rw [tgPeak, e1]; simp only; rw [hpk, hmx]; exact f4
      · have hne : l1.items.length ≠ l.items.length := by
          rw [hil, hil1, hc1, hc]
          have := Nat.mul_lt_mul_of_pos_right hlt hi
          omega
        rw [tgBuffers, e1]; simp only
        rw [if_neg hne, f5, show m' - m = (m' - (m + 1)) + 1 by omega, List.range_succ_eq_map, List.map_cons, List.map_map, hil1, hc1]
        simp only [List.singleton_append, Nat.add_zero]
        congr 1
        apply List.map_congr_left
        intro i _
        show tgCapa (m + 1 + i + 1) * isz = tgCapa (m + (i + 1) + 1) * isz
        congr 2; omega

/-! ### Binary search -/

theorem bsearchLoop_any (item : Nat → C (List Byte)) (xs : List (List Byte)) (hitem : ∀ i (h : i < xs.length), item i = .ok xs[i]) (o : List Byte)
    (compar : σ → List Byte → List Byte → Int × σ) (nel : Nat) : ∀ (base : Nat) (s : σ), base + nel ≤ xs.length →
    ∃ r s' log, bsearchLoop item o compar base nel s = .ok (r, s', log) ∧ (∀ i, r = some i → i < xs.length) ∧
      log.length ≤ (if nel = 0 then 0 else Nat.log2 nel + 1) ∧ (∀ x ∈ log, x ∈ xs) ∧
      ((∀ s, ∀ x ∈ xs, (compar s o x).1 < 0) → log.length = (if nel = 0 then 0 else Nat.log2 nel + 1) ∧ r = none) := by
  induction nel using Nat.strongRecOn with
  | ind nel ih =>
    intro base s hb
    rw [bsearchLoop]
    by_cases hn : nel > 0
    · rw [dif_pos hn, if_neg (by omega)]
      simp only
      have hx : base + nel / 2 < xs.length := by omega
      have hmem : xs[base + nel / 2] ∈ xs := List.getElem_mem _
      rw [hitem _ hx, ok_bindE]
      generalize xs[base + nel / 2] = p at hmem
      generalize hr : compar s o p = q
      obtain ⟨c, s1⟩ := q
      simp only
      have hlog : ∀ k, k ≤ nel / 2 → (if k = 0 then 0 else Nat.log2 k + 1) ≤ Nat.log2 nel := by
        intro k hk
        split
        · omega
        · exact log2_half (by omega) (by omega)
      by_cases h1 : c < 0
      · rw [if_pos h1]
        obtain ⟨r, s', log, e, a1, a2, a3, a4⟩ := ih (nel / 2) (by omega) base s1 (by omega)
        rw [e, ok_bindE]
        have := hlog (nel / 2) (Nat.le_refl _)
        refine ⟨r, s', p :: log, rfl, a1, by rw [List.length_cons]; omega, ?_, fun h => ?_⟩
        · intro x hx
          rcases List.mem_cons.1 hx with rfl | hx
          · exact hmem
          · exact a3 x hx
        · obtain ⟨b1, b2⟩ := a4 h
          refine ⟨?_, b2⟩
          rw [List.length_cons, b1]
          congr 1
          rw [Nat.log2_def nel]
          split <;> split <;> omega
      · rw [if_neg h1]
        have hno : ¬ ∀ s, ∀ x ∈ xs, (compar s o x).1 < 0 := by
          intro h; have := h s p hmem; rw [hr] at this; exact h1 this
        by_cases h2 : c > 0
        · rw [if_pos h2]
          obtain ⟨r, s', log, e, a1, a2, a3, a4⟩ := ih (nel - (nel / 2 + 1)) (by omega) (base + nel / 2 + 1) s1 (by omega)
          rw [e, ok_bindE]
          have := hlog (nel - (nel / 2 + 1)) (by omega)
          refine ⟨r, s', p :: log, rfl, a1, by rw [List.length_cons]; omega, ?_, fun h => absurd h hno⟩
          intro x hx
          rcases List.mem_cons.1 hx with rfl | hx
          · exact hmem
          · exact a3 x hx
        · rw [if_neg h2]
          refine ⟨some (base + nel / 2), s1, [p], rfl, fun i hi => by cases hi; exact hx, by simp, ?_, fun h => absurd h hno⟩
          intro x hx
          rw [List.mem_singleton] at hx
          rw [hx]; exact hmem
    · rw [dif_neg hn, if_pos (by omega)]
      exact ⟨none, s, [], rfl, by simp, by simp, by simp, fun _ => ⟨rfl, rfl⟩⟩

theorem bsearchLoop_pure (item : Nat → C (List Byte)) (o : List Byte) (cmp : List Byte → List Byte → Int) (l : Sblist.SB)
    (hitem : item = fun i => Sblist.deref l (Sblist.get l i)) (nel : Nat) : ∀ (base : Nat) (s : σ),
    (bsearchLoop item o (fun s x y => (cmp x y, s)) base nel s).map (fun q => (q.1, q.2.1)) = (Sblist.bsearchLoop l o cmp base nel).map (fun p => (p, s)) := by
  induction nel using Nat.strongRecOn with
  | ind nel ih =>
    intro base s
    rw [bsearchLoop, Sblist.bsearchLoop]
    by_cases hn : nel > 0
    · rw [dif_pos hn, dif_pos hn]
      simp only
      rw [show item (base + nel / 2) = Sblist.deref l (Sblist.get l (base + nel / 2)) by rw [hitem]]
      cases Sblist.deref l (Sblist.get l (base + nel / 2)) with
      | error e => rfl
      | ok p =>
        rw [ok_bindE, ok_bindE]
        by_cases h1 : cmp o p < 0
        · rw [if_pos h1, if_pos h1]
          rw [← ih (nel / 2) (by omega) base s]
          generalize bsearchLoop item o _ base (nel / 2) s = z
          cases z <;> rfl
        · rw [if_neg h1, if_neg h1]
          by_cases h2 : cmp o p > 0
          · rw [if_pos h2, if_pos h2]
            rw [← ih (nel - (nel / 2 + 1)) (by omega) (base + nel / 2 + 1) s]
            generalize bsearchLoop item o _ _ _ s = z
            cases z <;> rfl
          · rw [if_neg h2, if_neg h2]; rfl
    · rw [dif_neg hn, dif_neg hn]; rfl

/-! ### Sums -/

theorem sum_sb (b isz : Nat) : ∀ m, 2 * ((List.range m).map fun i => b * (i + 1) * isz).sum = isz * b * (m * (m + 1))
  | 0 => by simp
  | m + 1 => by
    rw [List.range_succ, List.map_append, List.sum_append, Nat.mul_add, sum_sb b isz m]
    simp only [List.map_cons, List.map_nil, List.sum_cons, List.sum_nil, Nat.add_zero]
    grind

theorem sum_tg (isz : Nat) : ∀ m, ((List.range m).map fun i => tgCapa (i + 1) * isz).sum + 4 * isz = 4 * 2 ^ m * isz
  | 0 => by simp
  | m + 1 => by
    rw [List.range_succ, List.map_append, List.sum_append]
    have := sum_tg isz m
    simp only [List.map_cons, List.map_nil, List.sum_cons, List.sum_nil, Nat.add_zero, tgCapa, Nat.pow_succ] at this ⊢
    grind

end Ulz.Cost

import Verif.Spec.Held
import Verif.Proofs.Cost
import Verif.Proofs.Tglist
/-! Lemmas for C195. -/
namespace Ulz.Held
open Ulz.Cost Ulz.Cost.Spec Ulz.Held.Spec
open Ulz.Sblist (SB)
open Ulz.Tglist (TG)
open Ulz.Alias (A Fault lift)
open Ulz.Frame (bind_ok)

theorem put_drop {b xs : List Byte} {i k : Nat} (h : i + xs.length ≤ k) (hb : i + xs.length ≤ b.length) : (put b i xs).drop k = b.drop k := by
  unfold put
  rw [List.drop_append, List.drop_eq_nil_of_le (by simp only [List.length_append, List.length_take]; omega), List.nil_append, List.drop_drop]
  congr 1
  simp only [List.length_append, List.length_take]
  omega

theorem wrN_drop {b b' xs : List Byte} {i k : Nat} (e : wrN b i xs = .ok b') (h : i + xs.length ≤ k) : b'.drop k = b.drop k ∧ b'.length = b.length := by
  unfold wrN at e
  split at e
  · rename_i hb
    cases e
    exact ⟨put_drop h hb, put_length hb⟩
  · cases e

theorem rdN_length {b x : List Byte} {i n : Nat} (e : rdN b i n = .ok x) : x.length = n := by
  unfold rdN at e
  split at e
  · cases e; rw [List.length_take, List.length_drop]; omega
  · cases e

theorem memmove_drop {b b' : List Byte} {d s n k : Nat} (e : memmove b d s n = .ok b') (h : d + n ≤ k) : b'.drop k = b.drop k ∧ b'.length = b.length := by
  unfold memmove at e
  obtain ⟨x, e1, e2⟩ := bind_ok.1 e
  exact wrN_drop e2 (by rw [rdN_length e1]; exact h)

theorem rdN_of_drop {b b' : List Byte} {k i n : Nat} (h : b'.drop k = b.drop k) (hl : b'.length = b.length) (hi : k ≤ i) : rdN b' i n = rdN b i n := by
  unfold rdN
  rw [hl, show i = k + (i - k) by omega, ← List.drop_drop, ← List.drop_drop, h]

/-! ### sblist -/

theorem set_tail {l l' : SB} {x : List Byte} {pos r k : Nat} (e : Sblist.set l x pos = .ok (l', r)) (hb : l.count * l.itemsize < 2^64)
    (hk : (pos + 1) * l.itemsize ≤ k) : l'.items.drop k = l.items.drop k ∧ l'.items.length = l.items.length ∧ l'.count = l.count := by
  unfold Sblist.set at e
  split at e
  · cases e; exact ⟨rfl, rfl, rfl⟩
  · rename_i hp
    obtain ⟨y, e1, e⟩ := bind_ok.1 e
    obtain ⟨z, e2, e⟩ := bind_ok.1 e
    cases e
    have hy := rdN_length e1
    rw [szt_of_lt (Sblist.mul_lt_of hb (by omega))] at e2
    rw [Nat.succ_mul] at hk
    have := wrN_drop (k := k) e2 (by omega)
    exact ⟨this.1, this.2, rfl⟩

theorem grow_none {a : Alloc} {l : SB} (h : (decide (l.count = l.capa) && a.isSome) = false) :
    Sblist.grow_if_needed a l = (l, 0) ∨ Sblist.grow_if_needed a l = (l, 1) := by
  unfold Sblist.grow_if_needed
  by_cases hc : l.count = l.capa
  · rw [if_pos hc]
    cases a with
    | none => exact .inl rfl
    | some f => simp [hc] at h
  · rw [if_neg hc]; exact .inr rfl

/-- A call that does not reallocate leaves everything behind the items it leaves. -/
theorem sb_step_tail {l l' : SB} {op : Sblist.Op} {r : Sblist.Res} (e : Sblist.step l op = .ok (l', r)) (hr : sbReallocs l op = false)
    (hb : (l.count + 1) * l.itemsize < 2^64) (hop : Sblist.Spec.OpOk l.itemsize l.count op) :
    l'.items.drop (l'.count * l.itemsize) = l.items.drop (l'.count * l.itemsize) ∧ l'.items.length = l.items.length := by
  have h1 : l.count * l.itemsize < 2^64 := Sblist.mul_lt_of hb (by omega)
  cases op with
  | add x a =>
    simp only [Sblist.step, Sblist.add] at e
    rcases grow_none hr with g | g <;> rw [g] at e <;> simp only at e
    · simp only [if_true] at e
      cases e; exact ⟨rfl, rfl⟩
    · rw [if_neg (by omega)] at e
      obtain ⟨⟨l2, r2⟩, e1, e⟩ := bind_ok.1 e
      cases e
      obtain ⟨k1, k2, k3⟩ := set_tail (k := (l.count + 1) * l.itemsize) e1 hb (by simp)
      simp only at k3
      rw [k3]
      exact ⟨k1, k2⟩
  | addi x a =>
    simp only [Sblist.step, Sblist.addi] at e
    rcases grow_none hr with g | g <;> rw [g] at e <;> simp only at e
    · simp only [if_true] at e
      cases e; exact ⟨rfl, rfl⟩
    · rw [if_neg (by omega)] at e
      obtain ⟨⟨l2, r2⟩, e1, e⟩ := bind_ok.1 e
      obtain ⟨⟨l3, r3⟩, e0, e1⟩ := bind_ok.1 e1
      cases e1
      cases e
      obtain ⟨k1, k2, k3⟩ := set_tail (k := (l.count + 1) * l.itemsize) e0 hb (by simp)
      simp only at k3
      rw [k3]
      exact ⟨k1, k2⟩
  | set x pos =>
    simp only [Sblist.step] at e
    obtain ⟨⟨l2, r2⟩, e1, e⟩ := bind_ok.1 e
    cases e
    by_cases hp : pos < l.count
    · obtain ⟨k1, k2, k3⟩ := set_tail (k := l.count * l.itemsize) e1 h1 (Nat.mul_le_mul_right _ hp)
      rw [k3]; exact ⟨k1, k2⟩
    · unfold Sblist.set at e1
      rw [if_pos (by omega)] at e1
      cases e1; exact ⟨rfl, rfl⟩
  | get i =>
    simp only [Sblist.step] at e
    obtain ⟨x, e1, e⟩ := bind_ok.1 e
    cases e; exact ⟨rfl, rfl⟩
  | insert x pos a =>
    simp only [Sblist.step, Sblist.insert] at e
    have hp : pos ≤ l.count := hop.2
    rcases grow_none hr with g | g <;> rw [g] at e <;> simp only at e
    · simp only [if_true] at e
      cases e; exact ⟨rfl, rfl⟩
    · rw [if_neg (by omega)] at e
      obtain ⟨⟨l2, r2⟩, e1, e⟩ := bind_ok.1 e
      obtain ⟨z, e0, e1⟩ := bind_ok.1 e1
      cases e
      have hc : l.count < 2^64 ∨ l.itemsize = 0 := by
        by_cases h0 : l.itemsize = 0
        · exact .inr h0
        · left
          have : l.count * 1 ≤ l.count * l.itemsize := Nat.mul_le_mul_left _ (by omega)
          omega
      obtain ⟨k1, k2, k3⟩ := set_tail (k := (l.count + 1) * l.itemsize) e1 hb (Nat.mul_le_mul_right _ (by omega))
      simp only at k1 k2 k3
      have hm : szt ((pos + 1) * l.itemsize) + szt (sztSub l.count pos * l.itemsize) ≤ (l.count + 1) * l.itemsize := by
        rcases hc with hc | hc
        · rw [sztSub_of_le hp hc, szt_of_lt (Sblist.mul_lt_of hb (by omega)), szt_of_lt (Sblist.mul_lt_of hb (by omega)), ← Nat.add_mul]
          exact Nat.mul_le_mul_right _ (by omega)
        · rw [hc]; simp [szt]
      have := memmove_drop e0 hm
      rw [k3]
      exact ⟨k1.trans this.1, k2.trans this.2⟩
  | delete i =>
    simp only [Sblist.step] at e
    obtain ⟨l2, e1, e⟩ := bind_ok.1 e
    cases e
    exact delete_tail e1 h1
  | pop =>
    simp only [Sblist.step, Sblist.pop] at e
    obtain ⟨⟨l2, p⟩, e1, e⟩ := bind_ok.1 e
    obtain ⟨x, e2, e⟩ := bind_ok.1 e
    cases e
    split at e1
    · obtain ⟨l3, e3, e1⟩ := bind_ok.1 e1
      cases e1
      exact delete_tail e3 h1
    · cases e1; exact ⟨rfl, rfl⟩
where
  delete_tail {l l' : SB} {i : Nat} (e : Sblist.delete l i = .ok l') (h1 : l.count * l.itemsize < 2^64) :
      l'.items.drop (l'.count * l.itemsize) = l.items.drop (l'.count * l.itemsize) ∧ l'.items.length = l.items.length := by
    unfold Sblist.delete at e
    split at e
    · rename_i hi
      obtain ⟨z, e0, e⟩ := bind_ok.1 e
      cases e
      refine memmove_drop e0 ?_
      rw [szt_of_lt (Sblist.mul_lt_of h1 (by omega)), szt_of_lt (Sblist.mul_lt_of h1 (by omega)), ← Nat.add_mul]
      exact Nat.mul_le_mul_right _ (by show i + (l.count - (i + 1)) ≤ l.count - 1; omega)
    · cases e; exact ⟨rfl, rfl⟩

/-- A call that reallocates has filled the list and adds an item. -/
theorem sb_step_grown {l : SB} {xs ys} {op : Sblist.Op} {r : Sblist.Res} (h : Sblist.Spec.Rep l xs) (hs : Sblist.Spec.Step xs op ys r)
    (hr : sbReallocs l op = true) : ys.length = l.capa + 1 := by
  have hc := h.count
  cases op <;> simp [sbReallocs] at hr <;> obtain ⟨h1, h2⟩ := hr <;> cases hs <;> simp at h2 ⊢ <;> omega

theorem sb_slot {l : SB} {xs} (h : Sblist.Spec.Rep l xs) (hb : l.count * l.itemsize < 2^64) {i : Nat} (hi : i < xs.length) :
    Sblist.content l (Sblist.get l i) = .ok (some xs[i]) ∧ rdN l.items (i * l.itemsize) l.itemsize = .ok xs[i] := by
  have e := Sblist.deref_get h hb hi
  have hc := h.count
  unfold Sblist.get at e ⊢
  rw [if_pos (by omega), szt_of_lt (Sblist.mul_lt_of hb (by omega))] at e ⊢
  refine ⟨?_, e⟩
  simp only [Sblist.deref] at e
  simp only [Sblist.content]
  rw [e]; rfl

theorem sb_out {l : SB} {i : Nat} (h : l.count ≤ i) : Sblist.content l (Sblist.get l i) = .ok none := by
  unfold Sblist.get
  rw [if_neg (by omega)]; rfl

theorem sbPeak_ge (l : SB) (ops : List Sblist.Op) : l.count ≤ sbPeak l ops := by
  cases ops with
  | nil => exact Nat.le_refl _
  | cons o os => rw [sbPeak]; split <;> omega

/-- The pointer to slot `i`, which shows `v` now, after any calls. -/
theorem sb_held (i : Nat) : ∀ (ops : List Sblist.Op) (l : SB) (xs : List (List Byte)) (n m : Nat) (v : List Byte),
    Sblist.Spec.Rep l xs → 0 < l.blockitems → (l.count + ops.length + l.blockitems) * l.itemsize < 2^64 → Sblist.Spec.Valid l ops →
    m ≤ n → (i + 1) * l.itemsize < 2^64 → (m = n → rdN l.items (i * l.itemsize) l.itemsize = .ok v) →
    ∃ s rs, sbrun ⟨l, n⟩ ops = .ok (s, rs) ∧ Sblist.run l ops = .ok (s.l, rs) ∧
      sbread s ⟨m, i * l.itemsize⟩ = if m = n ∧ sbPeak l ops ≤ l.capa then .ok (sbLast i v l ops) else .error .freed
  | [], l, xs, n, m, v, h, h1, h3, hv, hm, hi, hs => by
    refine ⟨⟨l, n⟩, [], rfl, rfl, ?_⟩
    have hc : l.count * l.itemsize < 2^64 := Sblist.mul_lt_of h3 (by omega)
    have := h.capa
    rw [sbPeak, sbread]
    by_cases e : m = n
    · simp only
      rw [if_neg (by omega), if_pos ⟨e, this⟩, hs e]
      by_cases hx : i < xs.length
      · obtain ⟨a, b⟩ := sb_slot h hc hx
        rw [hs e] at b
        cases b
        rw [sbLast, a]; rfl
      · rw [sbLast, sb_out (by rw [h.count]; omega)]; rfl
    · simp only
      rw [if_pos e, if_neg (fun w => e w.1)]
  | op :: ops, l, xs, n, m, v, h, h1, h3, hv, hm, hi, hs => by
    rw [List.length_cons] at h3
    have hop := hv [] op ops rfl l [] rfl
    obtain ⟨l1, r, ys, e1, hst, h4, h5, h6, h7⟩ := Sblist.step_spec h h1 (Sblist.mul_lt_of h3 (by omega)) op hop
    have hv1 : Sblist.Spec.Valid l1 ops := by
      intro pre o post hpre l2 rs hr
      rw [h5]
      refine hv (op :: pre) o post (by rw [hpre]; rfl) l2 (r :: rs) ?_
      simp only [Sblist.run]
      rw [e1, ok_bindE, hr]; rfl
    have hc : l.count * l.itemsize < 2^64 := Sblist.mul_lt_of h3 (by omega)
    have hcap := h.capa
    have hge := sbPeak_ge l1 ops
    have hcnt := h4.count
    by_cases hr : sbReallocs l op = true
    · have hg := sb_step_grown h hst hr
      obtain ⟨s, rs, f1, f2, f3⟩ := sb_held i ops l1 ys (n + 1) m v h4 (by omega) (by rw [h5, h6]; exact Sblist.mul_lt_of h3 (by omega)) hv1
        (by omega) (by rw [h5]; exact hi) (by omega)
      refine ⟨s, r :: rs, ?_, ?_, ?_⟩
      · simp only [sbrun, sbstep]; rw [e1]; simp only [ok_bindE, if_pos hr]; simp only [pure_eq_ok, ok_bindE]; rw [f1]; rfl
      · simp only [Sblist.run]; rw [e1, ok_bindE, f2]; rfl
      · rw [h5] at f3
        rw [f3, if_neg (by omega), if_neg]
        rw [sbPeak, e1]
        simp only
        omega
    · have hr : sbReallocs l op = false := by simpa using hr
      obtain ⟨t1, t2⟩ := sb_step_tail e1 hr (Sblist.mul_lt_of h3 (by omega)) hop
      let w : List Byte := match Sblist.content l (Sblist.get l i) with
        | .ok (some x) => x
        | _ => v
      have hw : m = n → rdN l.items (i * l.itemsize) l.itemsize = .ok w := by
        intro e
        by_cases hx : i < xs.length
        · obtain ⟨a, b⟩ := sb_slot h hc hx
          show _ = Except.ok (match Sblist.content l (Sblist.get l i) with | .ok (some x) => x | _ => v)
          rw [a]; exact b
        · show _ = Except.ok (match Sblist.content l (Sblist.get l i) with | .ok (some x) => x | _ => v)
          rw [sb_out (by rw [h.count]; omega)]; exact hs e
      have hc1 : l1.count * l1.itemsize < 2^64 := by rw [h5]; exact Sblist.mul_lt_of h3 (by omega)
      let w1 : List Byte := if hx : i < ys.length then ys[i] else w
      have hw1 : m = n → rdN l1.items (i * l1.itemsize) l1.itemsize = .ok w1 := by
        intro e
        by_cases hx : i < ys.length
        · obtain ⟨_, b⟩ := sb_slot h4 hc1 hx
          rw [b]; simp only [w1, dif_pos hx]
        · have : rdN l1.items (i * l.itemsize) l.itemsize = rdN l.items (i * l.itemsize) l.itemsize :=
            rdN_of_drop t1 t2 (Nat.mul_le_mul_right _ (by omega))
          rw [h5, this, hw e]; simp only [w1, dif_neg hx]
      obtain ⟨s, rs, f1, f2, f3⟩ := sb_held i ops l1 ys n m w1 h4 (by omega) (by rw [h5, h6]; exact Sblist.mul_lt_of h3 (by omega)) hv1
        hm (by rw [h5]; exact hi) hw1
      have hlast : sbLast i w1 l1 ops = sbLast i w l1 ops := by
        by_cases hx : i < ys.length
        · obtain ⟨a, _⟩ := sb_slot h4 hc1 hx
          cases ops with
          | nil => simp only [sbLast, a]
          | cons o os => simp only [sbLast, a]
        · simp only [w1, dif_neg hx]
      have hcap1 : l1.capa = l.capa := by
        have i1 := h.items_length
        have i2 := h4.items_length
        rw [t2, i1, h5] at i2
        exact (Nat.eq_of_mul_eq_mul_right h.isz i2).symm
      refine ⟨s, r :: rs, ?_, ?_, ?_⟩
      · simp only [sbrun, sbstep]; rw [e1]; simp only [ok_bindE, hr, pure_eq_ok]; simp only [Bool.false_eq_true, if_false]; rw [f1]; rfl
      · simp only [Sblist.run]; rw [e1, ok_bindE, f2]; rfl
      · rw [h5] at f3
        rw [f3, hlast, hcap1, sbPeak, e1]
        simp only
        have hl : sbLast i v l (op :: ops) = sbLast i w l1 ops := by
          rw [sbLast, e1]; rfl
        rw [hl]
        by_cases e : m = n ∧ sbPeak l1 ops ≤ l.capa
        · rw [if_pos e, if_pos ⟨e.1, by omega⟩]
        · rw [if_neg e, if_neg (fun z => e ⟨z.1, by omega⟩)]

/-! ### tglist -/

theorem tg_set_tail {isz : Nat} {l l' : TG} {x : List Byte} {pos r k : Nat} (e : Tglist.set isz l x pos = .ok (l', r)) (hb : pos * isz < 2^64)
    (hk : (pos + 1) * isz ≤ k) : l'.items.drop k = l.items.drop k ∧ l'.items.length = l.items.length ∧ l'.count = l.count := by
  unfold Tglist.set at e
  obtain ⟨y, e1, e⟩ := bind_ok.1 e
  obtain ⟨z, e2, e⟩ := bind_ok.1 e
  cases e
  have hy := rdN_length e1
  rw [szt_of_lt hb] at e2
  rw [Nat.succ_mul] at hk
  have := wrN_drop (k := k) e2 (by omega)
  exact ⟨this.1, this.2, rfl⟩

theorem tg_grow_none {isz : Nat} {a : Alloc} {l : TG} (h : (decide (l.count = l.capa) && a.isSome) = false) :
    Tglist.grow_if_needed isz a l = (l, 0) ∨ Tglist.grow_if_needed isz a l = (l, 1) := by
  unfold Tglist.grow_if_needed
  by_cases hc : l.count = l.capa
  · rw [if_pos hc]
    cases a with
    | none => exact .inl rfl
    | some f => simp [hc] at h
  · rw [if_neg hc]; exact .inr rfl

/-- A call that does not reallocate leaves everything behind the items it leaves. -/
theorem tg_step_tail {isz : Nat} {l l' : TG} {op : Tglist.Op} {r : Tglist.Res} (e : Tglist.step isz l op = .ok (l', r)) (hr : tgReallocs l op = false)
    (h0 : 0 < isz) (hb : (l.count + 1) * isz < 2^64) (hop : Tglist.Spec.OpOk isz l.count op) :
    l'.items.drop (l'.count * isz) = l.items.drop (l'.count * isz) ∧ l'.items.length = l.items.length := by
  have h1 : l.count * isz < 2^64 := Sblist.mul_lt_of hb (by omega)
  have hc64 : l.count + 1 < 2^64 := by
    have : (l.count + 1) * 1 ≤ (l.count + 1) * isz := Nat.mul_le_mul_left _ h0
    omega
  have hi64 : isz < 2^64 := by
    have : 1 * isz ≤ (l.count + 1) * isz := Nat.mul_le_mul_right _ (by omega)
    omega
  cases op with
  | add x a =>
    simp only [Tglist.step, Tglist.add] at e
    rcases tg_grow_none (isz := isz) hr with g | g <;> rw [g] at e <;> simp only at e
    · simp only [if_true] at e
      cases e; exact ⟨rfl, rfl⟩
    · rw [if_neg (by omega)] at e
      obtain ⟨⟨l2, r2⟩, e1, e⟩ := bind_ok.1 e
      cases e
      obtain ⟨k1, k2, k3⟩ := tg_set_tail (k := (l.count + 1) * isz) e1 (by simpa using h1) (by simp)
      simp only at k3
      rw [k3]
      exact ⟨k1, k2⟩
  | set x pos =>
    simp only [Tglist.step] at e
    obtain ⟨⟨l2, r2⟩, e1, e⟩ := bind_ok.1 e
    cases e
    have hp : pos < l.count := hop.2
    obtain ⟨k1, k2, k3⟩ := tg_set_tail (k := l.count * isz) e1 (Sblist.mul_lt_of h1 (by omega)) (Nat.mul_le_mul_right _ hp)
    rw [k3]; exact ⟨k1, k2⟩
  | get i =>
    simp only [Tglist.step] at e
    obtain ⟨x, e1, e⟩ := bind_ok.1 e
    cases e; exact ⟨rfl, rfl⟩
  | insert x pos a =>
    simp only [Tglist.step, Tglist.insert] at e
    have hp : pos ≤ l.count := hop.2
    rcases tg_grow_none (isz := isz) hr with g | g <;> rw [g] at e <;> simp only at e
    · simp only [if_true] at e
      cases e; exact ⟨rfl, rfl⟩
    · rw [if_neg (by omega)] at e
      obtain ⟨⟨l2, r2⟩, e1, e⟩ := bind_ok.1 e
      obtain ⟨l3, e0, e1⟩ := bind_ok.1 e1
      cases e
      unfold Tglist.memmove_impl at e0
      obtain ⟨z, e2, e0⟩ := bind_ok.1 e0
      cases e0
      obtain ⟨k1, k2, k3⟩ := tg_set_tail (k := (l.count + 1) * isz) e1 (Sblist.mul_lt_of h1 hp) (Nat.mul_le_mul_right _ (by omega))
      simp only at k1 k2 k3
      rw [show Int.toNat (-1 % 2^64) = 2^64 - 1 from by decide] at e2
      have hs : szt (pos + 1 + (2^64 - 1)) = pos := by
        unfold szt
        rw [show pos + 1 + (2^64 - 1) = pos + 2^64 by omega, Nat.add_mod_right, Nat.mod_eq_of_lt (by omega)]
      rw [hs, sztSub_of_le hp (by omega)] at e2
      have := memmove_drop (k := (l.count + 1) * isz) e2 (by
        rw [szt_of_lt (Sblist.mul_lt_of hb (by omega)), szt_of_lt (Sblist.mul_lt_of hb (by omega)), ← Nat.add_mul]
        exact Nat.mul_le_mul_right _ (by omega))
      rw [k3]
      exact ⟨k1.trans this.1, k2.trans this.2⟩
  | delete i =>
    simp only [Tglist.step, Tglist.delete, Tglist.memmove_impl] at e
    have hi : i < l.count := hop
    obtain ⟨l2, e1, e⟩ := bind_ok.1 e
    obtain ⟨l3, e0, e1⟩ := bind_ok.1 e1
    obtain ⟨z, e2, e0⟩ := bind_ok.1 e0
    cases e0
    simp only [pure_eq_ok, Except.ok.injEq] at e1
    subst e1
    simp only [pure_eq_ok, Except.ok.injEq, Prod.mk.injEq] at e
    obtain ⟨rfl, _⟩ := e
    simp only
    rw [show Int.toNat (1 % 2^64) = 1 from by decide, szt_of_lt (show i + 1 < 2^64 by omega), sztSub_of_le (show i + 1 ≤ l.count by omega) (by omega)] at e2
    rw [sztSub_of_le (show 1 ≤ l.count by omega) (by omega)]
    refine memmove_drop e2 ?_
    rw [szt_of_lt (Sblist.mul_lt_of h1 (by omega)), szt_of_lt (Sblist.mul_lt_of h1 (by omega)), ← Nat.add_mul]
    exact Nat.mul_le_mul_right _ (by omega)
  | getsize =>
    simp only [Tglist.step, pure_eq_ok] at e
    cases e; exact ⟨rfl, rfl⟩

theorem tg_step_grown {isz : Nat} {l : TG} {xs ys} {op : Tglist.Op} {r : Tglist.Res} (h : Tglist.Spec.Rep isz l xs) (hs : Tglist.Spec.Step xs op ys r)
    (hr : tgReallocs l op = true) : ys.length = l.capa + 1 := by
  have hc := h.count
  cases op <;> simp [tgReallocs] at hr <;> obtain ⟨h1, h2⟩ := hr <;> cases hs <;> simp at h2 ⊢ <;> omega

theorem tg_slot {isz : Nat} {l : TG} {xs} (h : Tglist.Spec.Rep isz l xs) (hb : l.count * isz < 2^64) {i : Nat} (hi : i < xs.length) :
    rdN l.items (i * isz) isz = .ok xs[i] := by
  have e := Tglist.get_spec h hb hi
  have hc := h.count
  unfold Tglist.get at e
  rwa [szt_of_lt (Sblist.mul_lt_of hb (by omega))] at e

theorem tgPeak_ge (isz : Nat) (l : TG) (ops : List Tglist.Op) : l.count ≤ tgPeak isz l ops := by
  cases ops with
  | nil => exact Nat.le_refl _
  | cons o os => rw [tgPeak]; split <;> omega

theorem tg_held (isz i : Nat) : ∀ (ops : List Tglist.Op) (l : TG) (xs : List (List Byte)) (n m : Nat) (v : List Byte),
    Tglist.Spec.Rep isz l xs → (2 * (l.count + ops.length) + 4) * isz < 2^64 → Tglist.Spec.Valid isz l ops →
    m ≤ n → (m = n → rdN l.items (i * isz) isz = .ok v) →
    ∃ s rs, tgrun isz ⟨l, n⟩ ops = .ok (s, rs) ∧ Tglist.run isz l ops = .ok (s.l, rs) ∧
      tgread isz s ⟨m, i * isz⟩ = if m = n ∧ tgPeak isz l ops ≤ l.capa then .ok (tgLast isz i v l ops) else .error .freed
  | [], l, xs, n, m, v, h, h3, hv, hm, hs => by
    refine ⟨⟨l, n⟩, [], rfl, rfl, ?_⟩
    have hc : l.count * isz < 2^64 := Sblist.mul_lt_of h3 (by omega)
    have := h.capa
    have hcnt := h.count
    rw [tgPeak, tgread]
    by_cases e : m = n
    · simp only
      rw [if_neg (by omega), if_pos ⟨e, this⟩, hs e]
      by_cases hx : i < xs.length
      · have b := tg_slot h hc hx
        rw [hs e] at b
        cases b
        rw [tgLast, Tglist.get_spec h hc hx, if_pos (by omega)]; rfl
      · rw [tgLast, if_neg (by omega)]; rfl
    · simp only
      rw [if_pos e, if_neg (fun w => e w.1)]
  | op :: ops, l, xs, n, m, v, h, h3, hv, hm, hs => by
    rw [List.length_cons] at h3
    have hop := hv [] op ops rfl l [] rfl
    obtain ⟨l1, r, ys, e1, hst, h4, _, h7⟩ := Tglist.step_spec h (Sblist.mul_lt_of h3 (by omega)) op hop
    have hv1 : Tglist.Spec.Valid isz l1 ops := by
      intro pre o post hpre l2 rs hr
      refine hv (op :: pre) o post (by rw [hpre]; rfl) l2 (r :: rs) ?_
      simp only [Tglist.run]
      rw [e1, ok_bindE, hr]; rfl
    have hc : l.count * isz < 2^64 := Sblist.mul_lt_of h3 (by omega)
    have hcap := h.capa
    have hge := tgPeak_ge isz l1 ops
    have hcnt := h4.count
    have hcnt0 := h.count
    have hb1 : (2 * (l1.count + ops.length) + 4) * isz < 2^64 := Sblist.mul_lt_of h3 (by omega)
    by_cases hr : tgReallocs l op = true
    · have hg := tg_step_grown h hst hr
      obtain ⟨s, rs, f1, f2, f3⟩ := tg_held isz i ops l1 ys (n + 1) m v h4 hb1 hv1 (by omega) (by omega)
      refine ⟨s, r :: rs, ?_, ?_, ?_⟩
      · simp only [tgrun, tgstep]; rw [e1]; simp only [ok_bindE, if_pos hr]; simp only [pure_eq_ok, ok_bindE]; rw [f1]; rfl
      · simp only [Tglist.run]; rw [e1, ok_bindE, f2]; rfl
      · rw [f3, if_neg (by omega), if_neg]
        rw [tgPeak, e1]
        simp only
        omega
    · have hr : tgReallocs l op = false := by simpa using hr
      obtain ⟨t1, t2⟩ := tg_step_tail e1 hr h.pos (Sblist.mul_lt_of h3 (by omega)) hop
      let w : List Byte := if i < l.count then (match Tglist.get isz l i with | .ok x => x | .error _ => v) else v
      have hw : m = n → rdN l.items (i * isz) isz = .ok w := by
        intro e
        by_cases hx : i < xs.length
        · have b := tg_slot h hc hx
          have hlt : i < l.count := by omega
          simp only [w, if_pos hlt, Tglist.get_spec h hc hx]; exact b
        · have hlt : ¬ i < l.count := by omega
          simp only [w, if_neg hlt]; exact hs e
      have hc1 : l1.count * isz < 2^64 := Sblist.mul_lt_of h3 (by omega)
      let w1 : List Byte := if hx : i < ys.length then ys[i] else w
      have hw1 : m = n → rdN l1.items (i * isz) isz = .ok w1 := by
        intro e
        by_cases hx : i < ys.length
        · rw [tg_slot h4 hc1 hx]; simp only [w1, dif_pos hx]
        · have : rdN l1.items (i * isz) isz = rdN l.items (i * isz) isz :=
            rdN_of_drop t1 t2 (Nat.mul_le_mul_right _ (by omega))
          rw [this, hw e]; simp only [w1, dif_neg hx]
      obtain ⟨s, rs, f1, f2, f3⟩ := tg_held isz i ops l1 ys n m w1 h4 hb1 hv1 hm hw1
      have hlast : tgLast isz i w1 l1 ops = tgLast isz i w l1 ops := by
        by_cases hx : i < ys.length
        · have hlt : i < l1.count := by omega
          cases ops with
          | nil => simp only [tgLast, Tglist.get_spec h4 hc1 hx, if_pos hlt]
          | cons o os => simp only [tgLast, Tglist.get_spec h4 hc1 hx, if_pos hlt]
        · simp only [w1, dif_neg hx]
      have hcap1 : l1.capa = l.capa := by
        have i1 := h.items_length
        have i2 := h4.items_length
        rw [t2, i1] at i2
        exact (Nat.eq_of_mul_eq_mul_right h.pos i2).symm
      refine ⟨s, r :: rs, ?_, ?_, ?_⟩
      · simp only [tgrun, tgstep]; rw [e1]; simp only [ok_bindE, hr, pure_eq_ok]; simp only [Bool.false_eq_true, if_false]; rw [f1]; rfl
      · simp only [Tglist.run]; rw [e1, ok_bindE, f2]; rfl
      · rw [f3, hlast, hcap1, tgPeak, e1]
        simp only
        have hl : tgLast isz i v l (op :: ops) = tgLast isz i w l1 ops := by
          rw [tgLast, e1]; rfl
        rw [hl]
        by_cases e : m = n ∧ tgPeak isz l1 ops ≤ l.capa
        · rw [if_pos e, if_pos ⟨e.1, by omega⟩]
        · rw [if_neg e, if_neg (fun z => e ⟨z.1, by omega⟩)]

end Ulz.Held
namespace Ulz.Held
open Ulz.Sblist (SB)
open Ulz.Frame (bind_ok)

theorem sbrun_of_run : ∀ (ops : List Sblist.Op) {l l' : SB} {rs : List Sblist.Res} (n : Nat), Sblist.run l ops = .ok (l', rs) →
    ∃ n', sbrun ⟨l, n⟩ ops = .ok (⟨l', n'⟩, rs)
  | [], l, l', rs, n, h => by cases h; exact ⟨n, rfl⟩
  | op :: ops, l, l', rs, n, h => by
    simp only [Sblist.run] at h
    obtain ⟨⟨l1, r⟩, h1, h⟩ := bind_ok.1 h
    obtain ⟨⟨l2, rs2⟩, h2, h⟩ := bind_ok.1 h
    cases h
    obtain ⟨n', e⟩ := sbrun_of_run ops (if sbReallocs l op then n + 1 else n) h2
    refine ⟨n', ?_⟩
    simp only [sbrun, sbstep]
    rw [h1]
    simp only [ok_bindE, pure_eq_ok]
    rw [e]; rfl

theorem run_append {l l1 l2 : SB} {a b : List Sblist.Op} {rs1 rs2 : List Sblist.Res} (h1 : Sblist.run l a = .ok (l1, rs1))
    (h2 : Sblist.run l1 b = .ok (l2, rs2)) : Sblist.run l (a ++ b) = .ok (l2, rs1 ++ rs2) := by
  induction a generalizing l rs1 with
  | nil => cases h1; exact h2
  | cons op ops ih =>
    simp only [Sblist.run] at h1
    obtain ⟨⟨l3, r⟩, e1, h1⟩ := bind_ok.1 h1
    obtain ⟨⟨l4, rs⟩, e2, h1⟩ := bind_ok.1 h1
    cases h1
    simp only [List.cons_append, Sblist.run]
    rw [e1, ok_bindE, ih e2]; rfl

theorem run_block : ∀ (ops : List Sblist.Op) (l : SB) (xs : List (List Byte)), Sblist.Spec.Rep l xs → 0 < l.blockitems →
    (l.count + ops.length + l.blockitems) * l.itemsize < 2^64 → Sblist.Spec.Valid l ops → ∀ {l' rs}, Sblist.run l ops = .ok (l', rs) →
    l'.blockitems = l.blockitems
  | [], l, xs, h, h1, h3, hv, l', rs, e => by cases e; rfl
  | op :: ops, l, xs, h, h1, h3, hv, l', rs, e => by
    rw [List.length_cons] at h3
    obtain ⟨l1, r, ys, e1, _, h4, h5, h6, h7⟩ := Sblist.step_spec h h1 (Sblist.mul_lt_of h3 (by omega)) op (hv [] op ops rfl l [] rfl)
    have hv1 : Sblist.Spec.Valid l1 ops := by
      intro pre o post hpre l2 rs hr
      rw [h5]
      refine hv (op :: pre) o post (by rw [hpre]; rfl) l2 (r :: rs) ?_
      simp only [Sblist.run]
      rw [e1, ok_bindE, hr]; rfl
    simp only [Sblist.run] at e
    rw [e1, ok_bindE] at e
    obtain ⟨⟨l2, rs2⟩, e2, e⟩ := bind_ok.1 e
    cases e
    rw [run_block ops l1 ys h4 (by omega) (by rw [h5, h6]; exact Sblist.mul_lt_of h3 (by omega)) hv1 e2, h6]

theorem sbLast_start {l : SB} {xs : List (List Byte)} (h : Sblist.Spec.Rep l xs) (hb : l.count * l.itemsize < 2^64) {i : Nat} (hi : i < xs.length)
    (v w : List Byte) {ops : List Sblist.Op} : Spec.sbLast i v l ops = Spec.sbLast i w l ops := by
  have a := (sb_slot h hb hi).1
  cases ops with
  | nil => simp only [Spec.sbLast, a]
  | cons o os => simp only [Spec.sbLast, a]

theorem sbLast_short (i : Nat) : ∀ (ops : List Sblist.Op) (l : SB) (v : List Byte), Cost.Spec.sbPeak l ops ≤ i → Spec.sbLast i v l ops = v
  | [], l, v, h => by
    rw [Cost.Spec.sbPeak] at h
    rw [Spec.sbLast, sb_out h]
  | op :: ops, l, v, h => by
    have := sbPeak_ge l (op :: ops)
    rw [Spec.sbLast, sb_out (by omega)]
    simp only
    rw [Cost.Spec.sbPeak] at h
    cases hs : Sblist.step l op with
    | error e => rfl
    | ok q =>
      obtain ⟨l', r⟩ := q
      rw [hs] at h
      exact sbLast_short i ops l' v (by simp only at h; omega)

end Ulz.Held

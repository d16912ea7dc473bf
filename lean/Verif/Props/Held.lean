import Verif.Proofs.Held
import Verif.Proofs.HeldTree
import Verif.Props.Cost
/-! C195: how long a pointer to an item of a list stays good, and what it shows meanwhile. -/
namespace Ulz.Props
open Ulz.Cost Ulz.Cost.Spec Ulz.Held Ulz.Held.Spec
open Ulz.Sblist (SB)
open Ulz.Tglist (TG)

/-- C195. A pointer to item `i` of an sblist, kept over any history of calls (with any allocation failures). Reading through it is reading
    freed memory exactly if the list has had, at some time since, more items than its buffer had room for when the pointer was taken.
    Otherwise it shows what `sblist_get(i)` shows, that is, the item that is now at index `i`, not the item it was taken for; if the list has
    become too short for an index `i`, it still shows, without fault, the last item that was there. -/
theorem sblist_pointer (l : SB) (xs : List (List Byte)) (h : Sblist.Spec.Rep l xs) (hbi : 0 < l.blockitems) (ops : List Sblist.Op)
    (hsz : (l.count + ops.length + l.blockitems) * l.itemsize < 2^64) (hv : Sblist.Spec.Valid l ops) (n i : Nat) (hi : i < xs.length) :
    ∃ p s rs, sbget ⟨l, n⟩ i = some p ∧ sbread ⟨l, n⟩ p = .ok xs[i] ∧ sbrun ⟨l, n⟩ ops = .ok (s, rs) ∧ Sblist.run l ops = .ok (s.l, rs) ∧
      sbread s p = if sbPeak l ops ≤ l.capa then .ok (sbLast i xs[i] l ops) else .error .freed := by
  have hc : l.count * l.itemsize < 2^64 := Sblist.mul_lt_of hsz (by omega)
  have hcnt := h.count
  have hs := (sb_slot h hc hi).2
  obtain ⟨s, rs, f1, f2, f3⟩ := sb_held i ops l xs n n xs[i] h hbi hsz hv (Nat.le_refl _) (Sblist.mul_lt_of hc (by omega)) (fun _ => hs)
  refine ⟨⟨n, i * l.itemsize⟩, s, rs, ?_, ?_, f1, f2, ?_⟩
  · unfold sbget Sblist.get
    rw [if_pos (by show i < l.count; omega), szt_of_lt (Sblist.mul_lt_of hc (by omega))]
    rfl
  · unfold sbread
    rw [if_neg (by simp)]
    show Alias.lift (rdN l.items (i * l.itemsize) l.itemsize) = _
    rw [hs]; rfl
  · rw [f3]
    simp only [true_and]

/-- Blocks of four one-byte items, three in the list; a pointer to the item 2 at index 1. After deleting the first item it shows the item 3,
    after two pops it still does, after two more additions it shows the 8; three more additions reallocate. -/
example : (sbget ⟨⟨1, 4, 3, 4, [1, 2, 3, 0]⟩, 5⟩ 1 = some ⟨5, 1⟩) ∧
    ([[], [.delete 0], [.delete 0, .pop, .pop], [.delete 0, .pop, .pop, .add [7] none, .add [8] none],
      [.add [7] none, .add [8] none, .delete 0], [.add [7] none, .add [8] (some fun _ => 0), .delete 0]] : List (List Sblist.Op)).map
      (fun ops => match sbrun ⟨⟨1, 4, 3, 4, [1, 2, 3, 0]⟩, 5⟩ ops with | .ok (s, _) => sbread s ⟨5, 1⟩ | .error e => .error (.ub e)) =
    [.ok [2], .ok [3], .ok [3], .ok [8], .ok [3], .error .freed] := by decide +kernel

/-- The hypotheses of the theorem hold for it. -/
example : Sblist.Spec.Rep ⟨1, 4, 3, 4, [1, 2, 3, 0]⟩ [[1], [2], [3]] ∧ Sblist.Spec.Valid ⟨1, 4, 3, 4, [1, 2, 3, 0]⟩ [.delete 0, .pop] := by
  refine ⟨⟨by decide, rfl, by simp, by decide, [0], rfl, rfl⟩, ?_⟩
  intro pre op post he l' rs hr
  match pre, he with
  | [], he => cases he; trivial
  | [_], he => cases he; trivial
  | _ :: _ :: _, he => have := congrArg List.length he; simp at this

/-- C195. What the pointer shows while the list has an item `i`: that item. -/
theorem sblist_pointer_shows (l : SB) (xs : List (List Byte)) (h : Sblist.Spec.Rep l xs) (hbi : 0 < l.blockitems) (ops : List Sblist.Op)
    (hsz : (l.count + ops.length + l.blockitems) * l.itemsize < 2^64) (hv : Sblist.Spec.Valid l ops) (n i : Nat) (hi : i < xs.length)
    (hroom : sbPeak l ops ≤ l.capa) :
    ∃ p s rs ys, sbget ⟨l, n⟩ i = some p ∧ sbrun ⟨l, n⟩ ops = .ok (s, rs) ∧ Sblist.Spec.Steps xs ops ys rs ∧
      (∀ hy : i < ys.length, sbget s i = some p ∧ sbread s p = .ok ys[i] ∧
        ∀ x, x.length = l.itemsize → ∃ s', sbwrite s p x = .ok s' ∧ Sblist.Spec.Rep s'.l (ys.set i x)) := by
  have hc : l.count * l.itemsize < 2^64 := Sblist.mul_lt_of hsz (by omega)
  obtain ⟨l', rs, ys, r1, r2, r3, r4, r5⟩ := Sblist.run_spec ops l xs h hbi hsz hv
  obtain ⟨p, s, rs', f1, f2, f3, f4, f5⟩ := sblist_pointer l xs h hbi ops hsz hv n i hi
  rw [r1] at f4
  cases f4
  rw [if_pos hroom] at f5
  have hcnt := h.count
  have hp : p = ⟨n, i * l.itemsize⟩ := by
    unfold sbget Sblist.get at f1
    rw [if_pos (by show i < l.count; omega), szt_of_lt (Sblist.mul_lt_of hc (by omega))] at f1
    exact (Option.some.inj f1).symm
  have hbuf : p.buf = s.buf := by
    apply Decidable.byContradiction
    intro hne
    rw [sbread, if_pos hne] at f5
    cases f5
  refine ⟨p, s, rs, ys, f1, f3, r2, fun hy => ?_⟩
  have hcnt' := r3.count
  have hc' : s.l.count * s.l.itemsize < 2^64 := by rw [r4]; exact Sblist.mul_lt_of hsz (by omega)
  have hg : sbget s i = some p := by
    unfold sbget Sblist.get
    rw [if_pos (by omega), szt_of_lt (Sblist.mul_lt_of hc' (by omega)), r4, hp]
    rw [hp] at hbuf
    rw [← hbuf]; rfl
  refine ⟨hg, ?_, fun x hx => ?_⟩
  · rw [sbread, if_neg (by simp [hbuf]), hp, ← r4, (sb_slot r3 hc' hy).2]; rfl
  · obtain ⟨l2, g1, g2, _⟩ := (Sblist.set_spec r3 hc' x (by rw [r4]; exact hx) i).1 hy
    unfold Sblist.set at g1
    rw [if_neg (by omega)] at g1
    rw [rdN_all (by rw [r4]; exact hx), ok_bindE, szt_of_lt (Sblist.mul_lt_of hc' (by omega))] at g1
    obtain ⟨z, g3, g1⟩ := Frame.bind_ok.1 g1
    cases g1
    refine ⟨{ s with l := { s.l with items := z } }, ?_, g2⟩
    rw [sbwrite, if_neg (by simp [hbuf]), hp, ← r4, g3]; rfl

/-- C195, from the list's creation on: with blocks of `b` items, a pointer taken after the calls `ops1` is good after the further calls `ops2`
    exactly if all the items the list ever held fit into the blocks it had by then: the fewest that held the most items of `ops1`. -/
theorem sblist_pointer_blocks (b isz : Nat) (hb : 0 < b) (hi : 0 < isz) (l : SB) (hl : Sblist.init isz b = .ok l) (ops1 ops2 : List Sblist.Op)
    (hsz : (ops1.length + ops2.length + b) * isz < 2^64) (hv : Sblist.Spec.Valid l (ops1 ++ ops2)) :
    ∃ s1 rs1, sbrun ⟨l, 0⟩ ops1 = .ok (s1, rs1) ∧ ∀ i < s1.l.count, ∃ p s2 rs2, sbget s1 i = some p ∧ sbrun s1 ops2 = .ok (s2, rs2) ∧
      sbread s2 p = if sbPeak s1.l ops2 ≤ (sbPeak l ops1 + b - 1) / b * b then .ok (sbLast i [] s1.l ops2) else .error .freed := by
  obtain ⟨l0, e, h1, h2, h3, h4⟩ := Sblist.init_rep hi hb
  rw [hl] at e
  cases e
  have hc : l.capa = 0 := by
    unfold Sblist.init at hl
    rw [if_pos (by omega)] at hl
    cases hl; rfl
  have hv1 : Sblist.Spec.Valid l ops1 := by
    intro pre op post he l' rs hr
    exact hv pre op (post ++ ops2) (by rw [he]; simp) l' rs hr
  have hsz1 : (ops1.length + b) * isz < 2^64 := Sblist.mul_lt_of hsz (by omega)
  obtain ⟨l1, rs1, m, f1, f2, _, f4, _⟩ := sb_history b isz hb hi ops1 l [] 0 0 h1 h2 h3 (by rw [h4, Nat.zero_add]; exact hsz1) hv1
    (by rw [hc, Nat.mul_zero]) (by omega) ⟨by simp, .inl rfl⟩
  rw [Nat.max_eq_right (Nat.zero_le _)] at f4
  obtain ⟨l1', rs1', xs, g1, _, g3, g4, g5⟩ := Sblist.run_spec ops1 l [] h1 (by omega) (by rw [h2, h3, h4, Nat.zero_add]; exact hsz1) hv1
  rw [f1] at g1
  cases g1
  have hb1 : l1.blockitems = b := (run_block ops1 l [] h1 (by omega) (by rw [h2, h3, h4, Nat.zero_add]; exact hsz1) hv1 f1).trans h2
  obtain ⟨n1, hn1⟩ : ∃ n1, sbrun ⟨l, 0⟩ ops1 = .ok (⟨l1, n1⟩, rs1) := sbrun_of_run ops1 0 f1
  refine ⟨⟨l1, n1⟩, rs1, hn1, fun i hlt => ?_⟩
  have hcap : l1.capa = b * m := by
    have := g3.items_length
    rw [f2, g4, h3] at this
    exact (Nat.eq_of_mul_eq_mul_right hi this).symm
  have hlt : i < l1.count := hlt
  have hcx := g3.count
  have hv2 : Sblist.Spec.Valid l1 ops2 := by
    intro pre op post he l' rs hr
    rw [g4]
    exact hv (ops1 ++ pre) op post (by rw [he]; simp) l' (rs1 ++ rs) (run_append f1 hr)
  obtain ⟨p, s2, rs2, j1, _, j2, _, j3⟩ := sblist_pointer l1 xs g3 (by omega) ops2 (by
    rw [g4, h3, hb1]; rw [h4] at g5; exact Sblist.mul_lt_of hsz (by omega)) hv2 n1 i (by omega)
  refine ⟨p, s2, rs2, j1, j2, ?_⟩
  have hq : (sbPeak l ops1 + b - 1) / b * b = l1.capa := by
    rw [hcap, Nat.mul_comm b m]
    congr 1
    have hpk := f4.1
    have hpk : sbPeak l ops1 ≤ b * m := hpk
    rcases f4.2 with rfl | h0
    · rw [Nat.mul_zero] at hpk
      rw [Nat.div_eq_of_lt (by omega)]
    · have h0 : b * (m - 1) < sbPeak l ops1 := h0
      have hm : b * m = b * (m - 1) + b := by
        rw [← Nat.mul_succ]
        congr 1
        cases m with
        | zero => rw [Nat.mul_zero] at hpk; omega
        | succ k => rfl
      apply Nat.div_eq_of_lt_le
      · rw [Nat.mul_comm]; omega
      · rw [Nat.succ_mul, Nat.mul_comm m b]; omega
  rw [j3, hq, sbLast_start g3 (by rw [g4, h3]; rw [h4] at g5; exact Sblist.mul_lt_of hsz (by omega)) (by omega) _ []]

/-- C195. The pointer `sblist_pop` returns goes on showing the popped item for as long as no call makes the list longer than it was right
    after the call. -/
theorem sblist_pop_pointer (l : SB) (xs : List (List Byte)) (h : Sblist.Spec.Rep l xs) (hbi : 0 < l.blockitems) (ops : List Sblist.Op)
    (hne : xs ≠ []) (hsz : (l.count + (ops.length + 1) + l.blockitems) * l.itemsize < 2^64) (hv : Sblist.Spec.Valid l (.pop :: ops)) (n : Nat) :
    ∃ s1 p, sbpop ⟨l, n⟩ = .ok (s1, some p) ∧ s1.l.count = l.count - 1 ∧ (sbPeak s1.l ops ≤ l.count - 1 →
      ∃ s2 rs, sbrun s1 ops = .ok (s2, rs) ∧ sbread s2 p = .ok (xs.getLast hne)) := by
  have hc : l.count * l.itemsize < 2^64 := Sblist.mul_lt_of hsz (by omega)
  have hcnt := h.count
  have hpos : 0 < xs.length := List.length_pos_iff.2 hne
  obtain ⟨p, s, rs, f1, f2, f3, f4, f5⟩ := sblist_pointer l xs h hbi (.pop :: ops) hsz hv n (l.count - 1) (by omega)
  obtain ⟨l1, o, g1, g2, g3, g4, g5⟩ := Sblist.pop_spec h hc
  have hcnt1 := g3.count
  rw [List.length_dropLast] at hcnt1
  have ho : o = Sblist.get l (l.count - 1) := by
    unfold Sblist.pop at g1
    rw [if_pos (by omega)] at g1
    simp only at g1
    obtain ⟨l3, _, g1⟩ := Frame.bind_ok.1 g1
    cases g1; rfl
  have hstep : Sblist.step l .pop = .ok (l1, .item xs.getLast?) := by
    simp only [Sblist.step]; rw [g1, ok_bindE]; simp only; rw [g2]; rfl
  refine ⟨⟨l1, n⟩, p, ?_, by show l1.count = _; omega, fun hpk => ?_⟩
  · unfold sbpop
    rw [g1, ok_bindE, ho]
    simp only [sbget] at f1
    simp only
    rw [f1]; rfl
  · simp only [sbrun, sbstep] at f3
    rw [hstep] at f3
    simp only [ok_bindE, pure_eq_ok, sbReallocs] at f3
    obtain ⟨⟨s', rs'⟩, f6, f3⟩ := Frame.bind_ok.1 f3
    cases f3
    refine ⟨s', rs', f6, ?_⟩
    have hcap := h.capa
    have hpk : sbPeak l1 ops ≤ l.count - 1 := hpk
    have hp0 : sbPeak l (.pop :: ops) ≤ l.capa := by
      rw [sbPeak, hstep]; simp only; omega
    rw [if_pos hp0, sbLast, (sb_slot h hc (i := l.count - 1) (by omega)).1, hstep] at f5
    simp only at f5
    rw [sbLast_short _ _ _ _ hpk] at f5
    rw [f5, List.getLast_eq_getElem]
    congr 2
    omega

/-- Popping the item 3 and the item 2: the pointers go on showing them after further deletions. -/
example : sbpop ⟨⟨1, 4, 3, 4, [1, 2, 3, 0]⟩, 5⟩ = .ok (⟨⟨1, 4, 2, 4, [1, 2, 3, 0]⟩, 5⟩, some ⟨5, 2⟩) ∧
    (match sbrun ⟨⟨1, 4, 2, 4, [1, 2, 3, 0]⟩, 5⟩ [.delete 0, .set [9] 0, .pop] with | .ok (s, _) => sbread s ⟨5, 2⟩ | .error e => .error (.ub e)) =
      .ok [3] := by decide +kernel

/-- C195. The same for a pointer `&tglist_get(l, i)`. -/
theorem tglist_pointer (isz : Nat) (l : TG) (xs : List (List Byte)) (h : Tglist.Spec.Rep isz l xs) (ops : List Tglist.Op)
    (hsz : (2 * (l.count + ops.length) + 4) * isz < 2^64) (hv : Tglist.Spec.Valid isz l ops) (n i : Nat) (hi : i < xs.length) :
    tgread isz ⟨l, n⟩ (tgptr isz ⟨l, n⟩ i) = .ok xs[i] ∧
    ∃ s rs, tgrun isz ⟨l, n⟩ ops = .ok (s, rs) ∧ Tglist.run isz l ops = .ok (s.l, rs) ∧
      tgread isz s (tgptr isz ⟨l, n⟩ i) = if tgPeak isz l ops ≤ l.capa then .ok (tgLast isz i xs[i] l ops) else .error .freed := by
  have hc : l.count * isz < 2^64 := Sblist.mul_lt_of hsz (by omega)
  have hcnt := h.count
  have hs := tg_slot h hc hi
  have hp : tgptr isz ⟨l, n⟩ i = ⟨n, i * isz⟩ := by
    unfold tgptr
    rw [szt_of_lt (Sblist.mul_lt_of hc (by omega))]
  obtain ⟨s, rs, f1, f2, f3⟩ := tg_held isz i ops l xs n n xs[i] h hsz hv (Nat.le_refl _) (fun _ => hs)
  refine ⟨?_, s, rs, f1, f2, ?_⟩
  · rw [hp]
    unfold tgread
    rw [if_neg (by simp)]
    show Alias.lift (rdN l.items (i * isz) isz) = _
    rw [hs]; rfl
  · rw [hp, f3]
    simp only [true_and]

example : ([[], [.delete 0], [.delete 0, .delete 1], [.add [7] none, .delete 0], [.add [7] none, .insert [8] 0 (some fun _ => 0)]] :
      List (List Tglist.Op)).map (fun ops => match tgrun 1 ⟨⟨3, 4, [1, 2, 3, 0]⟩, 5⟩ ops with
        | .ok (s, _) => tgread 1 s (tgptr 1 ⟨⟨3, 4, [1, 2, 3, 0]⟩, 5⟩ 1) | .error e => .error (.ub e)) =
    [.ok [2], .ok [3], .ok [3], .ok [3], .error .freed] := by decide +kernel

/-- The hypotheses of the theorem hold for it. -/
example : Tglist.Spec.Rep 1 ⟨3, 4, [1, 2, 3, 0]⟩ [[1], [2], [3]] ∧ Tglist.Spec.Valid 1 ⟨3, 4, [1, 2, 3, 0]⟩ [.delete 0] := by
  refine ⟨⟨by decide, rfl, by simp, by decide, [0], rfl, rfl⟩, ?_⟩
  intro pre op post he l' rs hr
  match pre, he with
  | [], he => cases he; cases hr; show 0 < 3; decide
  | _ :: _, he => have := congrArg List.length he; simp at this

/-- C195. What it shows while the list has an item `i`, and what writing through it does: as with `tglist_get` and `tglist_set` at `i`. -/
theorem tglist_pointer_shows (isz : Nat) (l : TG) (xs : List (List Byte)) (h : Tglist.Spec.Rep isz l xs) (hcap : Tglist.Spec.CapaOk l.capa)
    (ops : List Tglist.Op) (hsz : (2 * (l.count + ops.length) + 4) * isz < 2^64) (hv : Tglist.Spec.Valid isz l ops) (n i : Nat)
    (hi : i < xs.length) (hroom : tgPeak isz l ops ≤ l.capa) :
    ∃ s rs ys, tgrun isz ⟨l, n⟩ ops = .ok (s, rs) ∧ Tglist.Spec.Steps xs ops ys rs ∧
      (∀ hy : i < ys.length, tgptr isz s i = tgptr isz ⟨l, n⟩ i ∧ tgread isz s (tgptr isz ⟨l, n⟩ i) = .ok ys[i] ∧
        ∀ x, x.length = isz → ∃ s', tgwrite s (tgptr isz ⟨l, n⟩ i) x = .ok s' ∧ Tglist.Spec.Rep isz s'.l (ys.set i x)) := by
  have hc : l.count * isz < 2^64 := Sblist.mul_lt_of hsz (by omega)
  obtain ⟨l', rs, ys, r1, r2, r3, _, r5⟩ := Tglist.run_spec ops l xs h hcap hsz hv
  obtain ⟨_, s, rs', f3, f4, f5⟩ := tglist_pointer isz l xs h ops hsz hv n i hi
  rw [r1] at f4
  cases f4
  rw [if_pos hroom] at f5
  have hbuf : n = s.buf := by
    apply Decidable.byContradiction
    intro hne
    rw [tgread, if_pos (show (tgptr isz ⟨l, n⟩ i).buf ≠ s.buf from hne)] at f5
    cases f5
  refine ⟨s, rs, ys, f3, r2, fun hy => ?_⟩
  have hcnt' := r3.count
  have hc' : s.l.count * isz < 2^64 := Sblist.mul_lt_of hsz (by omega)
  have hz : szt (i * isz) = i * isz := szt_of_lt (Sblist.mul_lt_of hc' (by omega))
  refine ⟨by unfold tgptr; rw [← hbuf], ?_, fun x hx => ?_⟩
  · rw [tgread, tgptr]
    simp only
    rw [if_neg (by simp [hbuf]), hz, tg_slot r3 hc' hy]; rfl
  · obtain ⟨l2, g1, g2, _⟩ := Tglist.set_spec r3 hc' x hx hy
    unfold Tglist.set at g1
    rw [rdN_all hx, ok_bindE] at g1
    obtain ⟨z, g3, g1⟩ := Frame.bind_ok.1 g1
    cases g1
    refine ⟨{ s with l := { s.l with items := z } }, ?_, g2⟩
    rw [tgwrite, tgptr]
    simp only
    rw [if_neg (by simp [hbuf]), g3]; rfl

open Ulz.Tlist Ulz.Tlist.Spec in
/-- C195. A pointer `tlist_get` returned belongs to the item, not to the index. Over any history of calls the item is where `follow` says
    (each insertion at or before it moves it up, each deletion before it moves it down, its own deletion removes it): as long as it is in the
    list, `tlist_get` at its index returns the same pointer and the pointer shows the same bytes. Once it has been deleted, the pointer shows
    no item any more, unless `malloc` has returned the node's address for another one. -/
theorem tlist_pointer (t : TL) (T : Tr) (h : WF t T) (ops : List Op) (hn : T.size + ops.length < 2^32) (hv : Valid t ops) (i : Nat)
    (hi : i < T.items.length) :
    ∃ p t' rs T', tlist_get t i = .ok p ∧ content t p = some T.items[i] ∧ run t ops = .ok (t', rs) ∧ WF t' T' ∧
      match follow i ops rs with
      | some k => k < T'.items.length ∧ tlist_get t' k = .ok p ∧ content t' p = some T.items[i]
      | none => (∀ op ∈ ops, mem op ≠ some (p - hdr)) → content t' p = none := by
  have hl := items_length T
  have ha := addrs_length T
  have hia : i < T.addrs.length := by omega
  have h1 : T.addrs[i]? = some T.addrs[i] := List.getElem?_eq_getElem hia
  have h2 : T.items[i]? = some T.items[i] := List.getElem?_eq_getElem hi
  obtain ⟨t', rs, T', f1, f2, f3, f4⟩ := tl_follow ops t T i T.addrs[i] T.items[i] h hn hv h1 h2
  refine ⟨dataPtr T.addrs[i], t', rs, T', ?_, tl_content h h1 h2, f1, f2, ?_⟩
  · rw [Tlist.get_spec h (by omega), Nat.mod_eq_of_lt (by omega), h1]; rfl
  · cases hf : follow i ops rs with
    | none =>
      rw [hf] at f4
      intro hw
      refine tl_content_none f2 (f4 fun op ho => ?_)
      have := hw op ho
      rwa [dataPtr, Nat.add_sub_cancel] at this
    | some k =>
      rw [hf] at f4
      obtain ⟨a1, a2⟩ := f4
      have hk : k < T'.items.length := (List.getElem?_eq_some_iff.1 a2).1
      have hk' : k < T'.size := by rw [← items_length]; exact hk
      refine ⟨hk, ?_, tl_content f2 a1 a2⟩
      rw [Tlist.get_spec f2 (by omega), Nat.mod_eq_of_lt (by omega), a1]; rfl

/-- The demo history of C31: the item 10 is appended at address 100, moves to index 1 and is deleted; the item 30 at address 200 ends at
    index 1, and its pointer is the one `tlist_get` returned first. -/
example : (follow 0 [.insert 0 [5] (some 300), .delete 1] [.int 1, .int 1] = none) ∧
    (follow 1 [.insert 0 [5] (some 300), .delete 1] [.int 1, .int 1] = some 1) ∧
    ((Tlist.run (Tlist.tlist_new 1 []) [.append [10] (some 100), .append [30] (some 200)]).bind fun q => Tlist.tlist_get q.1 1) = .ok 224 ∧
    ((Tlist.run (Tlist.tlist_new 1 []) [.append [10] (some 100), .append [30] (some 200), .insert 0 [5] (some 300), .delete 1]).bind fun q => do
      pure (← Tlist.tlist_get q.1 1, Tlist.content q.1 224, Tlist.content q.1 124)) = .ok (224, some [30], none) := by decide +kernel

end Ulz.Props

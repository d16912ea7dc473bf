import Verif.Proofs.Sblist
import Verif.Spec.Hashlist
set_option linter.unusedSimpArgs false
set_option linter.unusedVariables false
namespace Ulz.Hashlist
open Spec
open Ulz.Sblist (SB mul_lt_of)

/-! ### Adding -/

def valsAt (n : Nat) (L : Log) (i : Nat) : List (List Byte) :=
  (L.filter fun e => e.1.toNat % n = i).map Prod.snd

structure Inv (n ds m : Nat) (h : HL) (L : Log) : Prop where
  len : h.buckets.length = n
  size : h.datasize = ds
  log : L.length ≤ m
  bucket : ∀ i (hi : i < h.buckets.length),
    match h.buckets[i] with
    | none => valsAt n L i = []
    | some l => Sblist.Spec.Rep l (valsAt n L i) ∧ l.itemsize = ds ∧ l.blockitems = 8

theorem valsAt_length {n L i} : (valsAt n L i).length ≤ L.length := by
  unfold valsAt
  rw [List.length_map]
  exact List.length_filter_le _ _

theorem valsAt_append {n L i} {e : BitVec 32 × List Byte} :
    valsAt n (L ++ [e]) i = if e.1.toNat % n = i then valsAt n L i ++ [e.2] else valsAt n L i := by
  unfold valsAt
  rw [List.filter_append, List.map_append]
  by_cases h : e.1.toNat % n = i <;> simp [h]

theorem slot_spec {n ds m h L} (hi : Inv n ds m h L) (hn : 0 < n) (hash : BitVec 32) :
    slot h hash = .ok (hash.toNat % n) := by
  unfold slot
  rw [hi.len, if_neg (by omega)]
  rfl

theorem bucket_spec {h : HL} {i : Nat} (hi : i < h.buckets.length) : bucket h i = .ok h.buckets[i] := by
  unfold bucket
  rw [List.getElem?_eq_getElem hi]
  rfl

theorem Inv.setBucket {n ds m h L} (hv : Inv n ds m h L) {i : Nat} (hi : i < n) {l : SB} {L' : Log} (hL : L'.length ≤ m + 1)
    (hl : Sblist.Spec.Rep l (valsAt n L' i) ∧ l.itemsize = ds ∧ l.blockitems = 8)
    (ho : ∀ j, j ≠ i → valsAt n L' j = valsAt n L j) :
    Inv n ds (m + 1) { h with buckets := h.buckets.set i (some l) } L' := by
  refine ⟨by simpa using hv.len, hv.size, hL, ?_⟩
  intro j hj
  simp only [List.length_set] at hj
  simp only [List.getElem_set]
  by_cases e : i = j
  · subst e
    simp only [if_true]
    exact hl
  · simp only [e, if_false]
    rw [ho j (Ne.symm e)]
    exact hv.bucket j hj

/-- Every bucket that exists holds something. -/
def NE (n : Nat) (h : HL) (L : Log) : Prop :=
  ∀ i (hi : i < h.buckets.length), h.buckets[i] ≠ none → valsAt n L i ≠ []

theorem add_spec {n ds m h L} (hv : Inv n ds m h L) (hn : 0 < n) (hds : 0 < ds) (hb : (m + 8) * ds < 2^64)
    (c : Add) (hc : c.value.length = ds) :
    ∃ h' r L', add c.hdr c.a h c.hash c.value = .ok (h', r) ∧ Spec.Step n L c L' r ∧ Inv n ds (m + 1) h' L' ∧
      (r = 0 → NE n h L → NE n h' L') := by
  have hlt : c.hash.toNat % n < n := Nat.mod_lt _ hn
  have hi : c.hash.toNat % n < h.buckets.length := by rw [hv.len]; exact hlt
  have hmono : Inv n ds (m + 1) h L := ⟨hv.len, hv.size, by have := hv.log; omega, hv.bucket⟩
  have hbk := hv.bucket _ hi
  have key : ∀ l, ensure h (c.hash.toNat % n) c.hdr = .ok (some l) →
      (Sblist.Spec.Rep l (valsAt n L (c.hash.toNat % n)) ∧ l.itemsize = ds ∧ l.blockitems = 8) →
      ∃ h' r L', add c.hdr c.a h c.hash c.value = .ok (h', r) ∧ Spec.Step n L c L' r ∧ Inv n ds (m + 1) h' L' ∧
      (r = 0 → NE n h L → NE n h' L') := by
    intro l he ⟨h1, h2, h3⟩
    unfold add
    rw [slot_spec hv hn]
    simp only [ok_bind, he]
    have hcnt : l.count ≤ m := by rw [h1.count]; exact Nat.le_trans valsAt_length hv.log
    rcases Sblist.add_spec h1 (by omega) (by rw [h2, h3]; exact mul_lt_of hb (by omega)) c.a c.value (by rw [h2]; exact hc)
      with ⟨l', r1, _, r2, r3, r4⟩ | ⟨r0, r1, _⟩
    · rw [r1]
      refine ⟨_, _, L ++ [(c.hash, c.value)], rfl, .stored, ?_, ?_⟩
      rotate_left
      · intro _ hne j hj
        simp only [List.length_set] at hj
        simp only [List.getElem_set]
        rw [valsAt_append]
        by_cases e : c.hash.toNat % n = j
        · simp [e]
        · simp only [e, if_false]
          exact hne j hj
      refine hv.setBucket hlt (by simp; exact hv.log) ?_ ?_
      · rw [valsAt_append, if_pos rfl]
        exact ⟨r2, r3.trans h2, r4.trans h3⟩
      · intro j hj
        rw [valsAt_append, if_neg (by simpa using Ne.symm hj)]
    · rw [r1]
      refine ⟨_, _, L, rfl, .noItems r0, ?_, fun h => by simp at h⟩
      exact hv.setBucket hlt (by have := hv.log; omega) ⟨h1, h2, h3⟩ (fun _ _ => rfl)
  cases hbi : h.buckets[c.hash.toNat % n] with
  | some l =>
    rw [hbi] at hbk
    refine key l ?_ hbk
    unfold ensure
    rw [bucket_spec hi, hbi]
    rfl
  | none =>
    rw [hbi] at hbk
    cases hh : c.hdr with
    | true =>
      obtain ⟨l, i1, i2, i3, i4, i5⟩ := Sblist.init_rep hds (by decide : 0 < 8)
      rw [← hh]
      refine key l ?_ ⟨by simp only at hbk; rw [hbk]; exact i2, i4, i3⟩
      unfold ensure
      rw [bucket_spec hi, hbi, hv.size, hh]
      simp only [ok_bind, if_true, i1]
      rfl
    | false =>
      refine ⟨h, -1, L, ?_, .noHeader hh hbk, hmono, fun h => by simp at h⟩
      unfold add
      rw [slot_spec hv hn]
      simp only [ok_bind]
      unfold ensure
      rw [bucket_spec hi, hbi]
      simp [pure_eq_ok, ok_bind]

theorem run_spec {n ds : Nat} (hn : 0 < n) (hds : 0 < ds) : ∀ (cs : List Add) (m : Nat) (h : HL) (L : Log),
    Inv n ds m h L → (m + cs.length + 8) * ds < 2^64 → (∀ c ∈ cs, c.value.length = ds) →
    ∃ h' rs L', run h cs = .ok (h', rs) ∧ Spec.Steps n L cs L' rs ∧ Inv n ds (m + cs.length) h' L' ∧
      ((∀ r ∈ rs, r = 0) → NE n h L → NE n h' L')
  | [], m, h, L, hv, _, _ => ⟨h, [], L, rfl, .nil, hv, fun _ h => h⟩
  | c :: cs, m, h, L, hv, hb, hc => by
    simp only [List.length_cons] at hb
    obtain ⟨h1, r, L1, a1, a2, a3, a4⟩ := add_spec hv hn hds (mul_lt_of hb (by omega)) c (hc c (by simp))
    obtain ⟨h2, rs, L2, b1, b2, b3, b4⟩ := run_spec hn hds cs (m + 1) h1 L1 a3 (mul_lt_of hb (by omega))
      (fun x hx => hc x (by simp [hx]))
    refine ⟨h2, r :: rs, L2, ?_, .cons a2 b2, ?_, ?_⟩
    · simp only [run, a1, b1, ok_bind]; rfl
    · rw [List.length_cons, show m + (cs.length + 1) = m + 1 + cs.length by omega]; exact b3
    · intro hr hne
      exact b4 (fun x hx => hr x (by simp [hx])) (a4 (hr r (by simp)) hne)

theorem new_inv {n ds : Nat} : Inv n ds 0 (new n ds) [] := by
  refine ⟨by simp [new], rfl, by simp, ?_⟩
  intro i hi
  simp only [new, List.getElem_replicate]
  rfl

/-- The contents of the buckets. -/
def contents (n : Nat) (h : HL) (L : Log) : List (Option (List (List Byte))) :=
  (List.range h.buckets.length).map fun i => (h.buckets[i]?.join).map fun _ => valsAt n L i

theorem inv_rep {n ds m h L} (hv : Inv n ds m h L) (hb : m * ds < 2^64) : BucketRep h (contents n h L) := by
  refine ⟨by simp [contents], ?_⟩
  intro i h1 h2
  have := hv.bucket i h1
  have e : (contents n h L)[i] = (h.buckets[i]).map fun _ => valsAt n L i := by
    simp [contents, h1]
  rw [e]
  cases hbi : h.buckets[i] with
  | none => trivial
  | some l =>
    rw [hbi] at this
    refine ⟨this.1, ?_⟩
    rw [this.2.1]
    exact mul_lt_of hb (by rw [this.1.count]; exact Nat.le_trans valsAt_length hv.log)

/-! ### Iterating -/

theorem skipNull_eq (h : HL) (p : Nat) : skipNull h p =
    if hp : p < h.buckets.length then
      match h.buckets[p] with
      | some _ => p
      | none => skipNull h (p + 1)
    else p := by rw [skipNull.eq_def]; rfl

theorem stream_cons (x) (B : List (Option (List (List Byte)))) : stream (x :: B) = stream [x] ++ stream B := by
  simp [stream]

theorem skipNull_spec {h : HL} {B} (hr : BucketRep h B) : ∀ (k p : Nat), h.buckets.length - p = k → p ≤ h.buckets.length →
    ∃ q, skipNull h p = q ∧ p ≤ q ∧ q ≤ h.buckets.length ∧ stream (B.drop p) = stream (B.drop q) ∧
      (q < h.buckets.length → ∃ xs, B[q]? = some (some xs)) := by
  intro k
  induction k with
  | zero =>
    intro p hk hp
    refine ⟨p, ?_, by omega, hp, rfl, fun h => by omega⟩
    rw [skipNull_eq, dif_neg (by omega)]
  | succ k ih =>
    intro p hk hp
    have hlt : p < h.buckets.length := by omega
    have hB : p < B.length := by rw [← hr.1]; exact hlt
    have hm := hr.2 p hlt hB
    rw [skipNull_eq, dif_pos hlt]
    cases hb : h.buckets[p] with
    | some l =>
      rw [hb] at hm
      refine ⟨p, rfl, by omega, hp, rfl, fun _ => ?_⟩
      cases hB2 : B[p] with
      | none => rw [hB2] at hm; exact hm.elim
      | some xs => exact ⟨xs, by rw [List.getElem?_eq_getElem hB, hB2]⟩
    | none =>
      rw [hb] at hm
      obtain ⟨q, q1, q2, q3, q4, q5⟩ := ih (p + 1) (by omega) (by omega)
      refine ⟨q, q1, by omega, q3, ?_, q5⟩
      rw [← q4, List.drop_eq_getElem_cons hB, stream_cons]
      cases hB2 : B[p] with
      | some xs => rw [hB2] at hm; exact hm.elim
      | none => simp [stream]

/-- What remains to be yielded after the iterator state. -/
def After (h : HL) (B : List (Option (List (List Byte)))) (it : Iter) (R : List (Option (List Byte))) : Prop :=
  (it = iterInit ∧ R = stream B) ∨
  (∃ (b p : Nat) (xs : List (List Byte)), it = ⟨b, p⟩ ∧ B[b]? = some (some xs) ∧
    R = (xs.drop (p + 1)).map some ++ stream (B.drop (b + 1))) ∨
  (it.bpos = h.buckets.length ∧ R = [])

theorem item_spec {h : HL} {B} (hr : BucketRep h B) {b p : Nat} {xs} (hB : B[b]? = some (some xs)) :
    item h b p = .ok xs[p]? ∧ ∃ l, derefBucket h b = .ok l ∧ l.count = xs.length := by
  obtain ⟨hb, hbx⟩ := List.getElem?_eq_some_iff.1 hB
  have hbh : b < h.buckets.length := by rw [hr.1]; exact hb
  have hm := hr.2 b hbh hb
  rw [hbx] at hm
  cases hl : h.buckets[b] with
  | none => rw [hl] at hm; exact hm.elim
  | some l =>
    rw [hl] at hm
    have hd : derefBucket h b = .ok l := by
      unfold derefBucket
      rw [if_neg (by omega), show ((b : Int)).toNat = b from rfl, bucket_spec hbh, hl]
      rfl
    refine ⟨?_, l, hd, hm.1.count⟩
    unfold item
    rw [hd]
    simp only [ok_bind]
    exact Sblist.get_content hm.1 hm.2 p

theorem advance_spec {h : HL} {B} (hr : BucketRep h B) {b : Int} {s : Nat} (hs : b + 1 = s) (hlt : s ≤ h.buckets.length) :
    ∃ it r, advance h b = .ok (it, r) ∧
      r = ((stream (B.drop s)).head?).join ∧ After h B it (stream (B.drop s)).tail := by
  obtain ⟨q, q1, q2, q3, q4, q5⟩ := skipNull_spec hr _ s rfl hlt
  unfold advance bucketNext
  rw [hs, show ((s : Int)).toNat = s from rfl, q1, q4]
  dsimp only
  by_cases hq : q < h.buckets.length
  · rw [if_pos hq]
    obtain ⟨xs, hxs⟩ := q5 hq
    obtain ⟨i1, l, i2, i3⟩ := item_spec hr (p := 0) hxs
    obtain ⟨hb, hbx⟩ := List.getElem?_eq_some_iff.1 hxs
    have hm := hr.2 q hq hb
    rw [hbx] at hm
    rw [bucket_spec hq]
    cases hl : h.buckets[q] with
    | none => rw [hl] at hm; exact hm.elim
    | some l2 =>
      simp only [ok_bind, pure_eq_ok]
      rw [show item h (q : Int) 0 = _ from i1]
      simp only [ok_bind]
      refine ⟨_, _, rfl, ?_, ?_⟩
      · rw [List.drop_eq_getElem_cons hb, hbx, stream_cons]
        cases xs <;> simp [stream]
      · right; left
        refine ⟨q, 0, xs, rfl, hxs, ?_⟩
        rw [List.drop_eq_getElem_cons hb, hbx, stream_cons]
        cases xs <;> simp [stream]
  · rw [if_neg hq]
    have : q = h.buckets.length := by omega
    have hd : stream (B.drop q) = [] := by
      rw [List.drop_eq_nil_of_le (by rw [← hr.1]; omega)]; rfl
    simp only [pure_eq_ok, ok_bind]
    refine ⟨_, _, rfl, by rw [hd]; rfl, ?_⟩
    right; right
    exact ⟨by simp [this], by rw [hd]; rfl⟩

theorem next_spec {h : HL} {B} (hr : BucketRep h B) {it R} (ha : After h B it R) :
    ∃ it', next h it = .ok (it', R.head?.join) ∧ After h B it' R.tail := by
  rcases ha with ⟨rfl, rfl⟩ | ⟨b, p, xs, rfl, hB, rfl⟩ | ⟨h1, rfl⟩
  · obtain ⟨it, r, a1, a2, a3⟩ := advance_spec hr (b := -1) (s := 0) (by omega) (by omega)
    rw [List.drop_zero] at a2 a3
    refine ⟨it, ?_, a3⟩
    rw [← a2, ← a1]
    unfold next needBucket
    rw [if_neg (by simp [iterInit]; omega)]
    simp only [iterInit, if_true, ok_bind, pure_eq_ok]
  · obtain ⟨hb, hbx⟩ := List.getElem?_eq_some_iff.1 hB
    have hbh : b < h.buckets.length := by rw [hr.1]; exact hb
    obtain ⟨i1, l, i2, i3⟩ := item_spec hr (p := p + 1) hB
    unfold next needBucket
    simp only
    rw [if_neg (by omega), if_neg (by omega), i2]
    simp only [ok_bind, pure_eq_ok, show ((p : Int) + 1).toNat = p + 1 from by omega, i3]
    by_cases hp : p + 1 ≥ xs.length
    · obtain ⟨it, r, a1, a2, a3⟩ := advance_spec hr (b := b) (s := b + 1) (by omega) (by omega)
      have e : (xs.drop (p + 1)).map some = ([] : List (Option (List Byte))) := by
        rw [List.drop_eq_nil_of_le hp]; rfl
      rw [e, List.nil_append]
      refine ⟨it, ?_, a3⟩
      rw [← a2, ← a1]
      simp only [hp, decide_true, if_true]
    · have hp' : p + 1 < xs.length := by omega
      simp only [hp, decide_false, Bool.false_eq_true, if_false]
      rw [show item h (b : Int) ((p : Int) + 1) = _ from i1]
      simp only [ok_bind]
      rw [List.drop_eq_getElem_cons hp', List.getElem?_eq_getElem hp']
      refine ⟨_, rfl, ?_⟩
      right; left
      exact ⟨b, p + 1, xs, by simp, hB, by simp only [List.map_cons, List.cons_append, List.tail_cons]⟩
  · refine ⟨it, ?_, Or.inr (Or.inr ⟨h1, rfl⟩)⟩
    unfold next
    rw [if_pos (by omega)]
    rfl

theorem nexts_spec {h : HL} {B} (hr : BucketRep h B) : ∀ (n : Nat) (it R), After h B it R →
    nexts h n it = .ok ((List.range n).map fun k => (R[k]?).join)
  | 0, it, R, ha => rfl
  | n + 1, it, R, ha => by
    obtain ⟨it', h1, h2⟩ := next_spec hr ha
    unfold nexts
    rw [h1]
    simp only [ok_bind, nexts_spec hr n it' _ h2, pure_eq_ok]
    rw [List.range_succ_eq_map]
    simp [Function.comp_def, List.head?_eq_getElem?]

/-! ### Every value once -/

theorem flatMap_congr' {α β} {l : List α} {f g : α → List β} (h : ∀ x ∈ l, f x = g x) : l.flatMap f = l.flatMap g := by
  induction l with
  | nil => rfl
  | cons a l ih =>
    rw [List.flatMap_cons, List.flatMap_cons, h a (by simp), ih fun x hx => h x (by simp [hx])]

theorem flatMap_perm_add {α} {f g : Nat → List α} {x : α} {i0 : Nat} : ∀ {l : List Nat}, l.Nodup → i0 ∈ l →
    (∀ i ∈ l, g i = if i = i0 then x :: f i else f i) → (l.flatMap g).Perm (x :: l.flatMap f)
  | [], _, h, _ => by simp at h
  | j :: l, hn, hm, hg => by
    rw [List.nodup_cons] at hn
    simp only [List.flatMap_cons]
    rw [hg j (by simp)]
    by_cases e : j = i0
    · rw [if_pos e]
      have : l.flatMap g = l.flatMap f := by
        apply flatMap_congr'
        intro i hi
        rw [hg i (by simp [hi]), if_neg]
        rintro rfl
        exact hn.1 (by rw [e]; exact hi)
      rw [this]
      simp
    · rw [if_neg e]
      have ih := flatMap_perm_add (f := f) (g := g) (x := x) hn.2 (by simpa [Ne.symm e] using hm)
        (fun i hi => hg i (by simp [hi]))
      exact (List.Perm.append_left (f j) ih).trans List.perm_middle

theorem all_perm {n : Nat} (hn : 0 < n) : ∀ (L : Log), ((List.range n).flatMap (valsAt n L)).Perm (L.map Prod.snd)
  | [] => by
    have : (List.range n).flatMap (valsAt n []) = [] := by simp [valsAt]
    rw [this]; exact .nil
  | e :: L => by
    refine (flatMap_perm_add (f := valsAt n L) (x := e.2) (i0 := e.1.toNat % n) List.nodup_range
      (by simpa using Nat.mod_lt _ hn) ?_).trans ((all_perm hn L).cons e.2)
    intro i _
    unfold valsAt
    by_cases h : e.1.toNat % n = i
    · simp [h]
    · simp [h, Ne.symm h]

theorem stream_contents {n ds m h L} (hv : Inv n ds m h L) (hne : NE n h L) :
    stream (contents n h L) = ((List.range n).flatMap (valsAt n L)).map some := by
  unfold stream contents
  rw [List.flatMap_map, List.map_flatMap, hv.len]
  apply flatMap_congr'
  intro i hi
  have hi' : i < h.buckets.length := by rw [hv.len]; simpa using hi
  have hb := hv.bucket i hi'
  have hn := hne i hi'
  rw [List.getElem?_eq_getElem hi']
  cases hbi : h.buckets[i] with
  | none =>
    rw [hbi] at hb
    simp only at hb
    simp [hb]
  | some l =>
    have := hn (by simp [hbi])
    simp only [Option.join_some, Option.map_some]

end Ulz.Hashlist

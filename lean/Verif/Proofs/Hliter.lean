import Verif.Proofs.Hashlist
import Verif.Spec.Hliter
import Verif.Proofs.Frame
/-! Lemmas about iterating over a hashlist that is added to. -/
namespace Ulz.Hliter
open Hashlist Hashlist.Spec Spec
open Ulz.Sblist (mul_lt_of)

theorem skip_spec {n ds m : Nat} {h : HL} {L : Log} (hv : Inv n ds m h L) : ∀ (k p : Nat), n - p = k → p ≤ n →
    p ≤ skipNull h p ∧ skipNull h p ≤ n ∧ (∀ i, p ≤ i → i < skipNull h p → valsAt n L i = []) ∧
      (skipNull h p < n → h.buckets[skipNull h p]?.join.isSome) := by
  intro k
  induction k with
  | zero =>
    intro p hk hp
    rw [skipNull_eq, dif_neg (by rw [hv.len]; omega)]
    exact ⟨by omega, hp, fun i h1 h2 => by omega, fun h => by omega⟩
  | succ k ih =>
    intro p hk hp
    have hlt : p < h.buckets.length := by rw [hv.len]; omega
    have hb := hv.bucket p hlt
    rw [skipNull_eq, dif_pos hlt]
    cases hbp : h.buckets[p] with
    | some l =>
      simp only
      refine ⟨by omega, hp, fun i h1 h2 => by omega, fun _ => ?_⟩
      rw [List.getElem?_eq_getElem hlt, hbp]
      rfl
    | none =>
      rw [hbp] at hb
      simp only at hb ⊢
      obtain ⟨i1, i2, i3, i4⟩ := ih (p + 1) (by omega) (by omega)
      refine ⟨by omega, i2, fun i h1 h2 => ?_, i4⟩
      by_cases he : i = p
      · subst he; exact hb
      · exact i3 i (by omega) h2

theorem bucket_of {n ds m : Nat} {h : HL} {L : Log} (hv : Inv n ds m h L) {i : Nat} (hi : i < n) (hs : valsAt n L i ≠ []) :
    (contents n h L)[i]? = some (some (valsAt n L i)) := by
  have hlt : i < h.buckets.length := by rw [hv.len]; exact hi
  have hb := hv.bucket i hlt
  unfold contents
  rw [List.getElem?_map, List.getElem?_range hlt]
  simp only [Option.map_some]
  rw [List.getElem?_eq_getElem hlt]
  cases hbi : h.buckets[i] with
  | none => rw [hbi] at hb; exact absurd hb hs
  | some l => rfl

theorem advance_case {n ds m : Nat} {h : HL} {L : Log} (hv : Inv n ds m h L) (hne : NE n h L) (hb : m * ds < 2 ^ 64) {b : Int} {s : Nat}
    (hs : b + 1 = s) (hlt : s ≤ n) :
    (∃ q v, advance h b = .ok (⟨(q : Nat), 0⟩, some v) ∧ s ≤ q ∧ q < n ∧ (∀ i, s ≤ i → i < q → valsAt n L i = []) ∧ (valsAt n L q)[0]? = some v) ∨
    (advance h b = .ok (⟨(n : Nat), 0⟩, none) ∧ ∀ i, s ≤ i → i < n → valsAt n L i = []) := by
  obtain ⟨q1, q2, q3, q4⟩ := skip_spec hv _ s rfl hlt
  have hr := inv_rep hv hb
  unfold advance bucketNext
  rw [hs, show ((s : Int)).toNat = s from rfl]
  generalize skipNull h s = q at *
  dsimp only
  by_cases hq : q < n
  · left
    have hq' : q < h.buckets.length := by rw [hv.len]; exact hq
    rw [if_pos hq', bucket_spec hq']
    have q5 := q4 hq
    rw [List.getElem?_eq_getElem hq'] at q5
    have hn := hne q hq'
    cases hbq : h.buckets[q] with
    | none => rw [hbq] at q5; cases q5
    | some l =>
      have hn := hn (by rw [hbq]; simp)
      obtain ⟨v, hv0⟩ : ∃ v, (valsAt n L q)[0]? = some v := by
        cases hx : valsAt n L q with
        | nil => exact absurd hx hn
        | cons a as => exact ⟨a, rfl⟩
      obtain ⟨i1, -⟩ := item_spec hr (p := 0) (bucket_of hv hq hn)
      simp only [ok_bind, pure_eq_ok]
      rw [show item h (q : Int) 0 = _ from i1]
      simp only [ok_bind]
      exact ⟨q, v, by rw [hv0], q1, hq, q3, hv0⟩
  · right
    have : q = n := by omega
    subst this
    rw [if_neg (by rw [hv.len]; omega)]
    simp only [ok_bind, pure_eq_ok]
    exact ⟨trivial, q3⟩

/-- Where the iterator is, and what has been returned, by what is in time (`T`). -/
inductive At (n : Nat) (L : Log) (T : Nat → List (List Byte)) : Int → Iter → List (List Byte) → Prop
  | start : (∀ i, i < n → T i = valsAt n L i) → At n L T (-1) iterInit []
  | mid {b p : Nat} : b < n → p < (valsAt n L b).length → (∀ i, b ≤ i → i < n → T i = valsAt n L i) →
      At n L T b ⟨(b : Nat), (p : Nat)⟩ ((List.range b).flatMap T ++ (valsAt n L b).take (p + 1))
  | done {p : Int} : At n L T n ⟨(n : Nat), p⟩ ((List.range n).flatMap T)

theorem range_split (T : Nat → List (List Byte)) {b q : Nat} (hbq : b ≤ q) (he : ∀ i, b ≤ i → i < q → T i = []) :
    (List.range q).flatMap T = (List.range b).flatMap T := by
  induction q with
  | zero => have : b = 0 := by omega
            subst this; rfl
  | succ q ih =>
    by_cases h : b = q + 1
    · subst h; rfl
    · rw [List.range_succ, List.flatMap_append, ih (by omega) (fun i h1 h2 => he i h1 (by omega))]
      simp [he q (by omega) (by omega)]

theorem valsAt_hash {n : Nat} {L : Log} {hashOf : List Byte → BitVec 32} (hL : ∀ e ∈ L, e.1 = hashOf e.2) {i j : Nat} {v : List Byte}
    (h : (valsAt n L i)[j]? = some v) : (hashOf v).toNat % n = i := by
  have hm := List.mem_of_getElem? h
  unfold valsAt at hm
  obtain ⟨e, he, rfl⟩ := List.mem_map.1 hm
  obtain ⟨he, hi⟩ := List.mem_filter.1 he
  rw [← hL e he]
  simpa using hi

theorem next_at {n ds m : Nat} {h : HL} {L : Log} (hv : Inv n ds m h L) (hne : NE n h L) (hb : m * ds < 2 ^ 64) (hn : 0 < n)
    {hashOf : List Byte → BitVec 32} (hL : ∀ e ∈ L, e.1 = hashOf e.2) {T : Nat → List (List Byte)} {cur : Int} {it : Iter}
    {out : List (List Byte)} (ha : At n L T cur it out) :
    (cur ≠ n ∧ ∃ it' v, next h it = .ok (it', some v) ∧ At n L T ((hashOf v).toNat % n : Nat) it' (out ++ [v])) ∨
    (∃ it', next h it = .ok (it', none) ∧ At n L T n it' out) := by
  have hr := inv_rep hv hb
  have adv : ∀ (b : Int) (s : Nat), b + 1 = s → s ≤ n → (∀ i, s ≤ i → i < n → T i = valsAt n L i) →
      next h it = advance h b → out = (List.range s).flatMap T → cur ≠ n →
      (cur ≠ n ∧ ∃ it' v, next h it = .ok (it', some v) ∧ At n L T ((hashOf v).toNat % n : Nat) it' (out ++ [v])) ∨
      (∃ it', next h it = .ok (it', none) ∧ At n L T n it' out) := by
    intro b s hs hlt hT hnx hout hcur
    rcases advance_case hv hne hb hs hlt with ⟨q, v, e, h1, h2, h3, h4⟩ | ⟨e, h3⟩
    · left
      refine ⟨hcur, _, v, by rw [hnx, e], ?_⟩
      rw [valsAt_hash hL h4]
      have hlen : 0 < (valsAt n L q).length := by
        rcases Nat.eq_zero_or_pos (valsAt n L q).length with h0 | h0
        · rw [List.eq_nil_of_length_eq_zero h0] at h4; cases h4
        · exact h0
      have := At.mid (T := T) h2 hlen (fun i h5 h6 => hT i (by omega) h6)
      rw [show (valsAt n L q).take (0 + 1) = [v] by
        cases hx : valsAt n L q with
        | nil => rw [hx] at h4; cases h4
        | cons a as => rw [hx] at h4; cases h4; rfl] at this
      rw [range_split T h1 (fun i h5 h6 => by rw [hT i h5 (by omega)]; exact h3 i h5 h6)] at this
      rw [hout]
      exact this
    · right
      refine ⟨_, by rw [hnx, e], ?_⟩
      rw [hout, ← range_split T hlt (fun i h5 h6 => by rw [hT i h5 h6]; exact h3 i h5 h6)]
      exact At.done
  cases ha with
  | start hT =>
    refine adv (-1) 0 rfl (by omega) (fun i _ h2 => hT i h2) ?_ rfl (by omega)
    unfold next needBucket
    rw [if_neg (by simp [iterInit]; omega)]
    simp only [iterInit, if_true, ok_bind, pure_eq_ok]
  | @mid b p h1 h2 hT =>
    have hbne : valsAt n L b ≠ [] := by intro h0; rw [h0] at h2; simp at h2
    obtain ⟨i1, l, i2, i3⟩ := item_spec hr (p := p + 1) (bucket_of hv h1 hbne)
    have hnx : next h ⟨(b : Nat), (p : Nat)⟩ = if p + 1 ≥ (valsAt n L b).length then advance h b
        else (do pure (⟨(b : Nat), (p : Int) + 1⟩, ← item h b ((p : Int) + 1))) := by
      unfold next needBucket
      simp only
      rw [if_neg (by rw [hv.len]; omega), if_neg (by omega), i2]
      simp only [ok_bind, pure_eq_ok, show ((p : Int) + 1).toNat = p + 1 from by omega, i3]
      by_cases hp : p + 1 ≥ (valsAt n L b).length <;> simp [hp]
    by_cases hp : p + 1 ≥ (valsAt n L b).length
    · rw [if_pos hp] at hnx
      refine adv b (b + 1) (by omega) (by omega) (fun i h3 h4 => hT i (by omega) h4) hnx ?_ (by omega)
      rw [List.range_succ, List.flatMap_append, List.take_of_length_le (by omega)]
      simp [hT b (Nat.le_refl _) h1]
    · rw [if_neg hp] at hnx
      left
      have hp' : p + 1 < (valsAt n L b).length := by omega
      rw [show item h (b : Int) ((p : Int) + 1) = _ from i1, List.getElem?_eq_getElem hp'] at hnx
      refine ⟨by omega, ⟨(b : Nat), ((p + 1 : Nat) : Int)⟩, (valsAt n L b)[p + 1], by rw [hnx]; rfl, ?_⟩
      rw [valsAt_hash hL (List.getElem?_eq_getElem hp'), List.append_assoc, List.take_append_getElem hp']
      exact At.mid h1 hp' hT
  | @done p =>
    right
    refine ⟨⟨(n : Nat), p⟩, ?_, At.done⟩
    unfold next
    rw [if_pos (show ((n : Nat) : Int) ≥ _ by rw [hv.len]; omega)]
    rfl

/-- An item is added while the iteration is where it is. -/
theorem at_add {n : Nat} {L : Log} {T : Nat → List (List Byte)} {cur : Int} {it : Iter} {out : List (List Byte)} (ha : At n L T cur it out)
    (hash : BitVec 32) (v : List Byte) :
    At n (L ++ [(hash, v)]) (fun i => T i ++ if hash.toNat % n = i ∧ cur ≤ i then [v] else []) cur it out := by
  have hlate : ∀ b : Nat, (List.range b).flatMap (fun i => T i ++ if hash.toNat % n = i ∧ (b : Int) ≤ i then [v] else []) = (List.range b).flatMap T := by
    intro b
    apply flatMap_congr'
    intro i hi
    have hi := List.mem_range.1 hi
    rw [if_neg (by omega), List.append_nil]
  cases ha with
  | start hT =>
    refine At.start fun i hi => ?_
    rw [valsAt_append, hT i hi]
    by_cases h : hash.toNat % n = i
    · simp only [h]
      rw [if_pos ⟨trivial, by omega⟩]
      simp
    · simp [h]
  | @mid b p h1 h2 hT =>
    have hl : p < (valsAt n (L ++ [(hash, v)]) b).length := by
      rw [valsAt_append]
      split
      · rw [List.length_append]; omega
      · exact h2
    have ht : (valsAt n (L ++ [(hash, v)]) b).take (p + 1) = (valsAt n L b).take (p + 1) := by
      rw [valsAt_append]
      split
      · rw [List.take_append_of_le_length (by omega)]
      · rfl
    rw [← hlate b, ← ht]
    refine At.mid h1 hl fun i h3 h4 => ?_
    rw [valsAt_append, hT i h3 h4]
    by_cases h : hash.toNat % n = i
    · simp only [h]
      rw [if_pos ⟨trivial, by omega⟩]
      simp
    · simp [h]
  | @done p =>
    have := At.done (p := p) (L := L ++ [(hash, v)]) (T := (fun i => T i ++ if hash.toNat % n = i ∧ ((n : Nat) : Int) ≤ i then [v] else [])) (n := n)
    rw [hlate n] at this
    exact this

theorem run_at {n ds : Nat} (hn : 0 < n) (hds : 0 < ds) {hashOf : List Byte → BitVec 32} : ∀ (es : List Ev) (m : Nat) (h : HL) (L : Log)
    (T : Nat → List (List Byte)) (cur : Int) (it : Iter) (out : List (List Byte)), Inv n ds m h L → NE n h L → (∀ e ∈ L, e.1 = hashOf e.2) →
    (m + es.length + 8) * ds < 2 ^ 64 → (∀ e ∈ es, Ok ds hashOf e) → At n L T cur it out →
    ∃ h' it' os L', run h it es = .ok (h', it', os) ∧ Inv n ds (m + es.length) h' L' ∧ NE n h' L' ∧ (∀ e ∈ L', e.1 = hashOf e.2) ∧
      L'.map Prod.snd = L.map Prod.snd ++ added os ∧
      At n L' (fun i => T i ++ inTime n hashOf i cur os) (where_ n hashOf cur os) it' (out ++ returned os) ∧
      (∀ hash v r, Obs.add hash v r ∈ os → r = 0) ∧ (Ended os ∨ cur = n → where_ n hashOf cur os = n) ∧
      (cur = n → returned os = [])
  | [], m, h, L, T, cur, it, out, hv, hne, hL, hb, ho, ha => by
    refine ⟨h, it, [], L, rfl, hv, hne, hL, by simp [added], ?_, by simp, ?_, fun _ => rfl⟩
    · simp only [inTime, where_, returned, List.append_nil]
      exact ha
    · rintro (h | h)
      · cases h
      · exact h
  | .next :: es, m, h, L, T, cur, it, out, hv, hne, hL, hb, ho, ha => by
    simp only [List.length_cons] at hb
    have hv' : Inv n ds (m + 1) h L := ⟨hv.len, hv.size, by have := hv.log; omega, hv.bucket⟩
    rcases next_at hv hne (mul_lt_of hb (by omega)) hn hL ha with ⟨hc, it1, v, e, a1⟩ | ⟨it1, e, a1⟩
    · obtain ⟨h', it', os, L', r1, r2, r3, r4, r5, r6, r7, r8, r9⟩ := run_at hn hds es (m + 1) h L T _ it1 _ hv' hne hL (mul_lt_of hb (by omega))
        (fun x hx => ho x (List.mem_cons_of_mem _ hx)) a1
      refine ⟨h', it', .next (some v) :: os, L', ?_, ?_, r3, r4, r5, ?_, ?_, ?_, fun hx => absurd hx hc⟩
      · simp only [run, step, e, ok_bind, pure_eq_ok, r1]
      · rw [List.length_cons, show m + (es.length + 1) = m + 1 + es.length by omega]; exact r2
      · simp only [inTime, where_, returned]
        rw [List.append_assoc] at r6
        exact r6
      · intro hash w r hm
        rcases List.mem_cons.1 hm with hm | hm
        · cases hm
        · exact r7 hash w r hm
      · rintro (hx | hx)
        · rcases List.mem_cons.1 hx with hx | hx
          · cases hx
          · exact r8 (Or.inl hx)
        · exact absurd hx hc
    · obtain ⟨h', it', os, L', r1, r2, r3, r4, r5, r6, r7, r8, r9⟩ := run_at hn hds es (m + 1) h L T _ it1 _ hv' hne hL (mul_lt_of hb (by omega))
        (fun x hx => ho x (List.mem_cons_of_mem _ hx)) a1
      refine ⟨h', it', .next none :: os, L', ?_, ?_, r3, r4, r5, ?_, ?_, ?_, fun _ => r9 rfl⟩
      · simp only [run, step, e, ok_bind, pure_eq_ok, r1]
      · rw [List.length_cons, show m + (es.length + 1) = m + 1 + es.length by omega]; exact r2
      · simp only [inTime, where_, returned]
        exact r6
      · intro hash w r hm
        rcases List.mem_cons.1 hm with hm | hm
        · cases hm
        · exact r7 hash w r hm
      · intro _
        exact r8 (Or.inr rfl)
  | .add c :: es, m, h, L, T, cur, it, out, hv, hne, hL, hb, ho, ha => by
    simp only [List.length_cons] at hb
    obtain ⟨c1, c2, c3, f, c4⟩ := ho _ (List.mem_cons_self ..)
    obtain ⟨h1, r, L1, e, s1, v1, n1⟩ := add_spec hv hn hds (mul_lt_of hb (by omega)) c c1
    cases s1 with
    | noItems hx => rw [c4] at hx; cases hx
    | noHeader hx => rw [c3] at hx; cases hx
    | stored =>
      have hL1 : ∀ e ∈ L ++ [(c.hash, c.value)], e.1 = hashOf e.2 := by
        intro e he
        rcases List.mem_append.1 he with he | he
        · exact hL e he
        · cases List.mem_singleton.1 he; exact c2
      obtain ⟨h', it', os, L', r1, r2, r3, r4, r5, r6, r7, r8, r9⟩ := run_at hn hds es (m + 1) h1 _ _ cur it out v1 (n1 rfl hne) hL1
        (mul_lt_of hb (by omega)) (fun x hx => ho x (List.mem_cons_of_mem _ hx)) (at_add ha c.hash c.value)
      refine ⟨h', it', .add c.hash c.value 0 :: os, L', ?_, ?_, r3, r4, ?_, ?_, ?_, ?_, r9⟩
      · simp only [run, step, e, ok_bind, pure_eq_ok, r1]
      · rw [List.length_cons, show m + (es.length + 1) = m + 1 + es.length by omega]; exact r2
      · rw [r5]; simp [added]
      · simp only [inTime, where_, returned]
        simp only [List.append_assoc, c2] at r6
        exact r6
      · intro hash w r hm
        rcases List.mem_cons.1 hm with hm | hm
        · cases hm; rfl
        · exact r7 hash w r hm
      · rintro (hx | hx)
        · rcases List.mem_cons.1 hx with hx | hx
          · cases hx
          · exact r8 (Or.inl hx)
        · exact r8 (Or.inr hx)

theorem at_prefix {n : Nat} {L : Log} {T : Nat → List (List Byte)} {cur : Int} {it : Iter} {out : List (List Byte)} (ha : At n L T cur it out) :
    (∃ rest, out ++ rest = (List.range n).flatMap T) ∧ (cur = n → out = (List.range n).flatMap T) := by
  cases ha with
  | start => exact ⟨⟨_, rfl⟩, fun h => by omega⟩
  | @mid b p h1 h2 hT =>
    refine ⟨⟨(valsAt n L b).drop (p + 1) ++ ((List.range (n - (b + 1))).map (b + 1 + ·)).flatMap T, ?_⟩, fun h => by omega⟩
    have e : List.range n = List.range b ++ b :: (List.range (n - (b + 1))).map (b + 1 + ·) := by
      have := List.range_add (n := b + 1) (m := n - (b + 1))
      rw [show b + 1 + (n - (b + 1)) = n by omega] at this
      rw [this, List.range_succ]
      simp
    rw [e, List.flatMap_append, List.flatMap_cons, hT b (Nat.le_refl _) h1, List.append_assoc, ← List.append_assoc (List.take _ _),
      List.take_append_drop]
  | done => exact ⟨⟨[], by simp⟩, fun _ => rfl⟩

theorem inTime_added {n : Nat} (hn : 0 < n) {hashOf : List Byte → BitVec 32} : ∀ (os : List Obs) (cur : Int),
    ∃ late, ((List.range n).flatMap (fun i => inTime n hashOf i cur os) ++ late).Perm (added os)
  | [], cur => ⟨[], by simp [inTime, added]⟩
  | .next (some v) :: os, cur => by simpa only [inTime, added] using inTime_added hn os _
  | .next none :: os, cur => by simpa only [inTime, added] using inTime_added hn os _
  | .add hash v r :: os, cur => by
    obtain ⟨late, hl⟩ := inTime_added hn os cur
    by_cases h : cur ≤ (((hashOf v).toNat % n : Nat) : Int)
    · refine ⟨late, ?_⟩
      have := flatMap_perm_add (f := fun i => inTime n hashOf i cur os) (g := fun i => inTime n hashOf i cur (.add hash v r :: os)) (x := v)
        (i0 := (hashOf v).toNat % n) List.nodup_range (by simpa using Nat.mod_lt _ hn) (by
          intro i _
          simp only [inTime]
          by_cases hi : i = (hashOf v).toNat % n
          · rw [if_pos ⟨hi.symm, by rw [hi]; exact h⟩, if_pos hi]; rfl
          · rw [if_neg (fun h => hi h.1.symm), if_neg hi]; rfl)
      exact ((this.append_right late).trans (List.Perm.cons v hl))
    · refine ⟨v :: late, ?_⟩
      have e : (List.range n).flatMap (fun i => inTime n hashOf i cur (.add hash v r :: os)) =
          (List.range n).flatMap (fun i => inTime n hashOf i cur os) := by
        apply flatMap_congr'
        intro i _
        simp only [inTime]
        rw [if_neg]
        · rfl
        · rintro ⟨h1, h2⟩
          rw [h1] at h
          exact h h2
      rw [e]
      exact List.perm_middle.trans (List.Perm.cons v hl)

theorem inTime_before {n : Nat} (hn : 0 < n) {hashOf : List Byte → BitVec 32} : ∀ (os1 os2 : List Obs), (∀ o ∈ os1, ∃ h v r, o = .add h v r) →
    ∃ rest, ((List.range n).flatMap (fun i => inTime n hashOf i (-1) (os1 ++ os2))).Perm (added os1 ++ rest)
  | [], os2, _ => ⟨_, List.Perm.refl _⟩
  | o :: os1, os2, h => by
    obtain ⟨hash, v, r, rfl⟩ := h _ (List.mem_cons_self ..)
    obtain ⟨rest, hr⟩ := inTime_before hn os1 os2 (fun o ho => h o (List.mem_cons_of_mem _ ho))
    refine ⟨rest, ?_⟩
    have := flatMap_perm_add (f := fun i => inTime n hashOf i (-1) (os1 ++ os2)) (g := fun i => inTime n hashOf i (-1) (.add hash v r :: os1 ++ os2))
      (x := v) (i0 := (hashOf v).toNat % n) List.nodup_range (by simpa using Nat.mod_lt _ hn) (by
        intro i _
        simp only [inTime, List.cons_append]
        by_cases hi : i = (hashOf v).toNat % n
        · rw [if_pos ⟨hi.symm, by omega⟩, if_pos hi]; rfl
        · rw [if_neg (fun h => hi h.1.symm), if_neg hi]; rfl)
    exact this.trans (List.Perm.cons v hr)

theorem run_adds : ∀ (cs : List Add) (es : List Ev) (h h' : HL) (it it' : Iter) (os : List Obs),
    run h it (cs.map Ev.add ++ es) = .ok (h', it', os) →
    ∃ os1 os2, os = os1 ++ os2 ∧ added os1 = cs.map (·.value) ∧ ∀ o ∈ os1, ∃ h v r, o = .add h v r
  | [], es, h, h', it, it', os, _ => ⟨[], os, rfl, rfl, by simp⟩
  | c :: cs, es, h, h', it, it', os, e => by
    simp only [List.map_cons, List.cons_append, run, step] at e
    obtain ⟨⟨h1, it1, o⟩, e1, e⟩ := Frame.bind_ok.1 e
    obtain ⟨⟨h2, it2, os'⟩, e2, e⟩ := Frame.bind_ok.1 e
    cases e
    obtain ⟨⟨h3, r⟩, e3, e1⟩ := Frame.bind_ok.1 e1
    cases e1
    obtain ⟨os1, os2, rfl, k1, k2⟩ := run_adds cs es _ _ _ _ _ e2
    refine ⟨.add c.hash c.value r :: os1, os2, rfl, ?_, ?_⟩
    · simp [added, k1]
    · intro o ho
      rcases List.mem_cons.1 ho with rfl | ho
      · exact ⟨_, _, _, rfl⟩
      · exact k2 o ho

theorem flatMap_two {α} (T D : Nat → List α) : ∀ l : List Nat, (l.flatMap fun i => T i ++ D i).Perm (l.flatMap T ++ l.flatMap D)
  | [] => List.Perm.refl _
  | i :: l => by
    simp only [List.flatMap_cons, List.append_assoc]
    refine List.Perm.append_left _ ?_
    refine ((flatMap_two T D l).append_left _).trans ?_
    rw [← List.append_assoc, ← List.append_assoc]
    exact List.perm_append_comm.append_right _

theorem flatMap_put {α} {n : Nat} (hn : 0 < n) (T : Nat → List α) {x : α} {cur : Int} {hash : BitVec 32} (hc : cur ≤ ((hash.toNat % n : Nat) : Int)) :
    ((List.range n).flatMap fun i => T i ++ if hash.toNat % n = i ∧ cur ≤ i then [x] else []).Perm ((List.range n).flatMap T ++ [x]) := by
  refine (flatMap_two T _ _).trans (List.Perm.append_left _ ?_)
  have := flatMap_perm_add (f := fun _ => ([] : List α)) (g := fun i : Nat => if hash.toNat % n = i ∧ cur ≤ i then [x] else [])
    (x := x) (i0 := hash.toNat % n) (l := List.range n) List.nodup_range (by simpa using Nat.mod_lt _ hn) (by
      intro i _
      by_cases hi : i = hash.toNat % n
      · rw [if_pos ⟨hi.symm, by rw [hi]; exact hc⟩, if_pos hi]
      · rw [if_neg (fun h => hi h.1.symm), if_neg hi])
  refine this.trans ?_
  rw [List.flatMap_eq_nil_iff.2 (by simp)]

/-- The loop that adds for every item something that is not in an earlier bucket. -/
theorem work_endless {n ds : Nat} (hn : 0 < n) (hds : 0 < ds) {hashOf : List Byte → BitVec 32} {g : List Byte → List Byte} {a : Nat → Byte}
    (hg : ∀ v, v.length = ds → (g v).length = ds ∧ (hashOf v).toNat % n ≤ (hashOf (g v)).toNat % n) : ∀ (fuel m : Nat) (h : HL) (L : Log)
    (T : Nat → List (List Byte)) (cur : Int) (it : Iter) (out : List (List Byte)), Inv n ds m h L → NE n h L → (∀ e ∈ L, e.1 = hashOf e.2) →
    (∀ e ∈ L, e.2.length = ds) → (m + fuel + 8) * ds < 2 ^ 64 → At n L T cur it out → out.length < ((List.range n).flatMap T).length →
    (∀ v ∈ (List.range n).flatMap T, v ∈ L.map Prod.snd) →
    workLoop hashOf g a fuel h it = .error .hang
  | 0, _, _, _, _, _, _, _, _, _, _, _, _, _, _, _ => rfl
  | fuel + 1, m, h, L, T, cur, it, out, hv, hne, hL, hlen, hb, ha, hlt, hT => by
    unfold workLoop
    rcases next_at hv hne (mul_lt_of hb (by omega)) hn hL ha with ⟨-, it1, v, e, a1⟩ | ⟨it1, e, a1⟩
    · rw [e]
      simp only [ok_bind]
      have hvm : v ∈ L.map Prod.snd := by
        obtain ⟨⟨rest, hr⟩, -⟩ := at_prefix a1
        exact hT v (by rw [← hr]; simp)
      have hvl : v.length = ds := by
        obtain ⟨e', he', rfl⟩ := List.mem_map.1 hvm
        exact hlen e' he'
      obtain ⟨g1, g2⟩ := hg v hvl
      obtain ⟨h1, r, L1, e1, s1, v1, n1⟩ := add_spec hv hn hds (mul_lt_of hb (by omega)) ⟨hashOf (g v), g v, true, some a⟩ g1
      simp only at e1
      rw [e1]
      simp only [ok_bind]
      cases s1 with
      | noItems hx => cases hx
      | noHeader hx => cases hx
      | stored =>
        have a2 := at_add a1 (hashOf (g v)) (g v)
        have hp := flatMap_put hn T (x := g v) (cur := (((hashOf v).toNat % n : Nat) : Int)) (hash := hashOf (g v)) (by omega)
        refine work_endless hn hds hg fuel (m + 1) h1 _ _ _ it1 _ v1 (n1 rfl hne) ?_ ?_ (mul_lt_of hb (by omega)) a2 ?_ ?_
        · intro e he
          rcases List.mem_append.1 he with he | he
          · exact hL e he
          · cases List.mem_singleton.1 he; rfl
        · intro e he
          rcases List.mem_append.1 he with he | he
          · exact hlen e he
          · cases List.mem_singleton.1 he; exact g1
        · rw [hp.length_eq, List.length_append, List.length_append]
          simp only [List.length_singleton]
          omega
        · intro w hw
          rw [List.map_append]
          rcases List.mem_append.1 (hp.subset hw) with hw | hw
          · exact List.mem_append.2 (Or.inl (hT w hw))
          · exact List.mem_append.2 (Or.inr hw)
    · exfalso
      have := (at_prefix a1).2 rfl
      rw [← this] at hlt
      omega

/-- The loop that adds for every item something in an earlier bucket. -/
theorem work_ends {n ds : Nat} (hn : 0 < n) (hds : 0 < ds) {hashOf : List Byte → BitVec 32} {g : List Byte → List Byte} {a : Nat → Byte}
    (T : Nat → List (List Byte)) (hg : ∀ v ∈ (List.range n).flatMap T, (g v).length = ds ∧ (hashOf (g v)).toNat % n < (hashOf v).toNat % n) :
    ∀ (fuel m : Nat) (h : HL) (L : Log) (cur : Int) (it : Iter) (out : List (List Byte)), Inv n ds m h L → NE n h L → (∀ e ∈ L, e.1 = hashOf e.2) →
    (m + fuel + 8) * ds < 2 ^ 64 → At n L T cur it out → ((List.range n).flatMap T).length < out.length + fuel →
    ∃ h', workLoop hashOf g a fuel h it = .ok h'
  | 0, _, _, _, _, _, _, _, _, _, _, ha, hlt => by
    obtain ⟨⟨rest, hr⟩, -⟩ := at_prefix ha
    rw [← hr, List.length_append] at hlt
    omega
  | fuel + 1, m, h, L, cur, it, out, hv, hne, hL, hb, ha, hlt => by
    unfold workLoop
    rcases next_at hv hne (mul_lt_of hb (by omega)) hn hL ha with ⟨-, it1, v, e, a1⟩ | ⟨it1, e, a1⟩
    · rw [e]
      simp only [ok_bind]
      have hvm : v ∈ (List.range n).flatMap T := by
        obtain ⟨⟨rest, hr⟩, -⟩ := at_prefix a1
        rw [← hr]
        simp
      obtain ⟨g1, g2⟩ := hg v hvm
      obtain ⟨h1, r, L1, e1, s1, v1, n1⟩ := add_spec hv hn hds (mul_lt_of hb (by omega)) ⟨hashOf (g v), g v, true, some a⟩ g1
      simp only at e1
      rw [e1]
      simp only [ok_bind]
      cases s1 with
      | noItems hx => cases hx
      | noHeader hx => cases hx
      | stored =>
        have a2 := at_add a1 (hashOf (g v)) (g v)
        rw [show (fun i => T i ++ if (hashOf (g v)).toNat % n = i ∧ (((hashOf v).toNat % n : Nat) : Int) ≤ (i : Nat) then [g v] else []) = T from
          funext fun i => by rw [if_neg (by omega), List.append_nil]] at a2
        refine work_ends hn hds T hg fuel (m + 1) h1 _ _ it1 _ v1 (n1 rfl hne) ?_ (mul_lt_of hb (by omega)) a2 ?_
        · intro e he
          rcases List.mem_append.1 he with he | he
          · exact hL e he
          · cases List.mem_singleton.1 he; rfl
        · rw [List.length_append]
          simp only [List.length_singleton]
          omega
    · rw [e]
      exact ⟨h, rfl⟩

theorem run_split : ∀ (os1 os2 : List Obs) (es : List Ev) (h h' : HL) (it it' : Iter), run h it es = .ok (h', it', os1 ++ os2) →
    ∃ es1 es2 h1 it1, es = es1 ++ es2 ∧ run h it es1 = .ok (h1, it1, os1) ∧ run h1 it1 es2 = .ok (h', it', os2)
  | [], os2, es, h, h', it, it', e => ⟨[], es, h, it, rfl, rfl, e⟩
  | o :: os1, os2, [], h, h', it, it', e => by cases e
  | o :: os1, os2, x :: es, h, h', it, it', e => by
    simp only [run] at e
    obtain ⟨⟨h1, it1, o'⟩, e1, e⟩ := Frame.bind_ok.1 e
    obtain ⟨⟨h2, it2, os'⟩, e2, e⟩ := Frame.bind_ok.1 e
    cases e
    obtain ⟨es1, es2, h3, it3, rfl, k1, k2⟩ := run_split os1 os2 es _ _ _ _ e2
    refine ⟨x :: es1, es2, h3, it3, rfl, ?_, k2⟩
    simp only [run, e1, ok_bind, k1, pure_eq_ok]

theorem new_ne {n ds : Nat} : NE n (new n ds) [] := by
  intro i hi hx
  simp [new] at hx

theorem start_run {n ds : Nat} (hn : 0 < n) (hds : 0 < ds) {hashOf : List Byte → BitVec 32} : ∀ (cs : List Add) (m : Nat) (h : HL) (L : Log),
    Inv n ds m h L → NE n h L → (∀ e ∈ L, e.1 = hashOf e.2) → (∀ c ∈ cs, Ok ds hashOf (.add c)) →
    (m + cs.length + 8) * ds < 2 ^ 64 → ∃ h' rs L', Hashlist.run h cs = .ok (h', rs) ∧ Inv n ds (m + cs.length) h' L' ∧ NE n h' L' ∧
      (∀ e ∈ L', e.1 = hashOf e.2) ∧ L'.map Prod.snd = L.map Prod.snd ++ cs.map (·.value)
  | [], m, h, L, hv, hne, hL, _, _ => ⟨h, [], L, rfl, hv, hne, hL, by simp⟩
  | c :: cs, m, h, L, hv, hne, hL, hc, hb => by
    simp only [List.length_cons] at hb
    obtain ⟨c1, c2, c3, f, c4⟩ := hc _ (List.mem_cons_self ..)
    obtain ⟨h1, r, L1, e, s1, v1, n1⟩ := add_spec hv hn hds (mul_lt_of hb (by omega)) c c1
    cases s1 with
    | noItems hx => rw [c4] at hx; cases hx
    | noHeader hx => rw [c3] at hx; cases hx
    | stored =>
      obtain ⟨h', rs, L', k1, k2, k3, k4, k5⟩ := start_run hn hds (hashOf := hashOf) cs (m + 1) h1 _ v1 (n1 rfl hne) (by
        intro e he
        rcases List.mem_append.1 he with he | he
        · exact hL e he
        · cases List.mem_singleton.1 he; exact c2) (fun x hx => hc x (List.mem_cons_of_mem _ hx)) (mul_lt_of hb (by omega))
      refine ⟨h', 0 :: rs, L', ?_, ?_, k3, k4, ?_⟩
      · simp only [Hashlist.run, e, ok_bind, k1, pure_eq_ok]
      · rw [List.length_cons, show m + (cs.length + 1) = m + 1 + cs.length by omega]; exact k2
      · rw [k5]; simp

end Ulz.Hliter

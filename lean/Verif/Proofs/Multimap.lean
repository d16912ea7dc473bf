import Verif.Spec.Multimap
import Verif.Proofs.Bmap
set_option linter.unusedSimpArgs false
set_option linter.unusedVariables false
namespace Ulz.Multimap
open Spec
open Ulz.Bmap (Cfg BM Res KV split_at)
open Ulz.Bmap.Spec (CfgOk)
open Ulz.Sblist (mul_lt_of)
open Ulz.Sblist.Spec (TotalPreorder Sorted)

/-- Aligned keys and values. -/
structure Al (c : Cfg) (b : BM) (S : List KV) : Prop where
  keys : Tglist.Spec.Rep c.ksz b.keys (S.map Prod.fst)
  values : Tglist.Spec.Rep c.vsz b.values (S.map Prod.snd)

abbrev Srt (c : Cfg) (S : List KV) : Prop := Sorted c.cmp (S.map Prod.fst)

theorem find_al {c : Cfg} {b S} (h : Al c b S) (hb : b.keys.count * c.ksz < 2^64) (k : List Byte) :
    Bmap.find c b k = .ok (c.bs k (S.map Prod.fst) c.cmp) := by
  unfold Bmap.find
  rw [Bmap.keysList_spec h.keys hb]
  rfl

theorem bs_sorted {c : Cfg} (hc : CfgOk c) {S} (hs : Srt c S) (k : List Byte) :
    (∃ (i : Nat) (hi : i < S.length), c.bs k (S.map Prod.fst) c.cmp = some i ∧ c.cmp k S[i].1 = 0) ∨
    (c.bs k (S.map Prod.fst) c.cmp = none ∧ (∀ e ∈ S, c.cmp k e.1 ≠ 0)) := by
  have hp : (S.map Prod.fst).Pairwise fun a b => (c.cmp k b).sign ≤ (c.cmp k a).sign := by
    refine List.Pairwise.imp ?_ hs
    intro x y hxy
    by_cases h1 : c.cmp k x < 0
    · have := Bmap.cmp_lt_of_lt_eq hc.cmp h1 hxy
      rw [Int.sign_eq_neg_one_of_neg this, Int.sign_eq_neg_one_of_neg h1]; exact Int.le_refl _
    · by_cases h2 : c.cmp k x = 0
      · have := hc.cmp.trans k x y (by omega) hxy
        rw [h2]
        rcases Int.lt_or_eq_of_le this with h3 | h3
        · rw [Int.sign_eq_neg_one_of_neg h3]; decide
        · rw [h3]; decide
      · rw [Int.sign_eq_one_of_pos (by omega : 0 < c.cmp k x)]
        rcases Int.lt_trichotomy (c.cmp k y) 0 with h3 | h3 | h3
        · rw [Int.sign_eq_neg_one_of_neg h3]; decide
        · rw [h3]; decide
        · rw [Int.sign_eq_one_of_pos h3]; exact Int.le_refl _
  have hbs := hc.bs k (S.map Prod.fst) c.cmp hp
  cases hr : c.bs k (S.map Prod.fst) c.cmp with
  | some i =>
    rw [hr] at hbs
    obtain ⟨hi, he⟩ := hbs
    simp only [List.length_map] at hi
    simp only [List.getElem_map] at he
    exact .inl ⟨i, hi, rfl, he⟩
  | none =>
    rw [hr] at hbs
    exact .inr ⟨rfl, fun e he => hbs e.1 (List.mem_map_of_mem he)⟩

theorem set_al {c : Cfg} {b S} (h : Al c b S) (hb : b.values.count * c.vsz < 2^64) {i : Nat}
    (hi : i < S.length) (v : List Byte) (hv : v.length = c.vsz) :
    ∃ vs, Tglist.set c.vsz b.values v i = .ok (vs, 1) ∧
      Al c ⟨b.keys, vs⟩ (S.take i ++ (S[i].1, v) :: S.drop (i + 1)) ∧
      (S.take i ++ (S[i].1, v) :: S.drop (i + 1)).map Prod.fst = S.map Prod.fst := by
  obtain ⟨vs, s1, s2, _⟩ := Tglist.set_spec h.values hb v hv (pos := i) (by simpa using hi)
  have e1 : (S.take i ++ (S[i].1, v) :: S.drop (i + 1)).map Prod.fst = S.map Prod.fst := by
    have := congrArg (List.map Prod.fst) (split_at hi)
    refine Eq.trans ?_ this.symm
    simp only [List.map_append, List.map_cons]
  refine ⟨vs, s1, ⟨by rw [e1]; exact h.keys, ?_⟩, e1⟩
  have e2 : (S.take i ++ (S[i].1, v) :: S.drop (i + 1)) = S.set i (S[i].1, v) := by
    rw [List.set_eq_take_append_cons_drop, if_pos hi]
  rw [e2, Bmap.map_set]
  exact s2

theorem nocheck_al {c : Cfg} {b S} (h : Al c b S) (hk : (2 * b.keys.count + 4) * c.ksz < 2^64)
    (hv : (2 * b.keys.count + 4) * c.vsz < 2^64) (a1 a2 : Alloc) (k v : List Byte) (hkl : k.length = c.ksz)
    (hvl : v.length = c.vsz) :
    (∃ b' p, Bmap.insert_nocheck c a1 a2 b k v = .ok (b', some p, some p) ∧ p ≤ S.length ∧
      Al c b' (S.take p ++ (k, v) :: S.drop p) ∧
      (TotalPreorder c.cmp → Srt c S → Srt c (S.take p ++ (k, v) :: S.drop p))) ∨
    (∃ b' ss, (a1 = none ∨ a2 = none) ∧ Bmap.insert_nocheck c a1 a2 b k v = .ok (b', none, ss) ∧ Al c b' S) := by
  have hcnt : b.values.count = b.keys.count := by rw [h.values.count, h.keys.count]; simp
  unfold Bmap.insert_nocheck
  rcases Tglist.insert_sorted_spec h.keys hk a1 k hkl c.cmp with ⟨ks, p, r1, r2, r3, r4⟩ | ⟨r1, rf, r2⟩
  · rw [r1]
    simp only [ok_bind]
    simp only [List.length_map] at r2
    rcases Tglist.insert_spec h.values (by rw [hcnt]; exact hv) a2 v hvl (pos := p) (by simpa using r2)
      with ⟨vs, s1, s2, _⟩ | ⟨s1, sf, s2⟩
    · left
      rw [s1]
      simp only [ok_bind, ne_eq, Nat.one_ne_zero, not_false_eq_true, if_true]
      refine ⟨_, p, rfl, r2, ⟨?_, ?_⟩, ?_⟩
      · simpa [List.map_take, List.map_drop] using r3
      · simpa [List.map_take, List.map_drop] using s2
      · intro t hs
        simpa [Srt, List.map_take, List.map_drop] using r4 t hs
    · right
      rw [s2]
      simp only [ok_bind, ne_eq, not_true_eq_false, if_false]
      have hkc : b.keys.count = S.length := by rw [h.keys.count]; simp
      have hkc2 : ks.count = S.length + 1 := by rw [r3.count]; simp; omega
      obtain ⟨ks', d1, d2, _, _⟩ := Tglist.delete_spec r3 (mul_lt_of hk (by omega)) (i := p) (by simp; omega)
      rw [d1]
      refine ⟨_, some p, .inr s1, rfl, ⟨?_, h.values⟩⟩
      have : ((S.map Prod.fst).take p ++ k :: (S.map Prod.fst).drop p).eraseIdx p = S.map Prod.fst := by
        rw [List.eraseIdx_append_of_length_le (by simp; omega)]
        simp [Nat.min_eq_left r2]
      rw [this] at d2
      exact d2
  · right
    rw [r2]
    exact ⟨_, none, .inl r1, rfl, h⟩

theorem delete_al {c : Cfg} {b S} (h : Al c b S) (hk : b.keys.count * c.ksz < 2^64)
    (hv : b.keys.count * c.vsz < 2^64) {i : Nat} (hi : i < S.length) :
    ∃ b', Bmap.delete c b i = .ok b' ∧ Al c b' (S.take i ++ S.drop (i + 1)) := by
  have hcnt : b.values.count = b.keys.count := by rw [h.values.count, h.keys.count]; simp
  obtain ⟨ks, d1, d2, _, _⟩ := Tglist.delete_spec h.keys hk (i := i) (by simpa using hi)
  obtain ⟨vs, e1, e2, _, _⟩ := Tglist.delete_spec h.values (by rw [hcnt]; exact hv) (i := i) (by simpa using hi)
  refine ⟨⟨ks, vs⟩, by simp only [Bmap.delete, d1, e1, ok_bind, pure_eq_ok], ⟨?_, ?_⟩⟩
  · rw [← List.eraseIdx_eq_take_drop_succ, Tglist.map_eraseIdx']; exact d2
  · rw [← List.eraseIdx_eq_take_drop_succ, Tglist.map_eraseIdx']; exact e2

/-- Everything a call can do, for any comparison function and any in-bounds search. -/
theorem step_al {c : Cfg} {b S} (h : Al c b S) (hb : ∀ k i, c.bs k (S.map Prod.fst) c.cmp = some i → i < S.length)
    (hk : (2 * b.keys.count + 4) * c.ksz < 2^64)
    (hv : (2 * b.keys.count + 4) * c.vsz < 2^64) (op : Op) (hop : OpOk c op) :
    ∃ b' r S', step c b op = .ok (b', r) ∧ Al c b' S' ∧ Touch S op S' ∧ S'.length ≤ S.length + 1 ∧
      (TotalPreorder c.cmp → Srt c S → Srt c S') ∧ (CfgOk c → Srt c S → Step c.cmp S op S' r) := by
  have hk0 : b.keys.count * c.ksz < 2^64 := mul_lt_of hk (by omega)
  have hv0 : b.keys.count * c.vsz < 2^64 := mul_lt_of hv (by omega)
  have hcnt : b.values.count = b.keys.count := by rw [h.values.count, h.keys.count]; simp
  have hmid : ∀ p k v, p ≤ S.length → (S.take p ++ (k, v) :: S.drop p).Perm ((k, v) :: S) := by
    intro p k v hp
    have := List.perm_middle (a := (k, v)) (l₁ := S.take p) (l₂ := S.drop p)
    rwa [List.take_append_drop] at this
  have herase : ∀ i (hi : i < S.length), S.Perm (S[i] :: (S.take i ++ S.drop (i + 1))) := by
    intro i hi
    have := List.perm_middle (a := S[i]) (l₁ := S.take i) (l₂ := S.drop (i + 1))
    rwa [← split_at hi] at this
  have hfound : ∀ k i, c.bs k (S.map Prod.fst) c.cmp = some i → CfgOk c → Srt c S → ∀ hi : i < S.length, c.cmp k S[i].1 = 0 := by
    intro k i hbs hc hs hi
    rcases bs_sorted hc hs k with ⟨j, hj, h1, h2⟩ | ⟨h1, h2⟩
    · rw [hbs] at h1
      cases h1
      exact h2
    · rw [hbs] at h1; cases h1
  have hnone : ∀ k, c.bs k (S.map Prod.fst) c.cmp = none → CfgOk c → Srt c S → ∀ e ∈ S, c.cmp k e.1 ≠ 0 := by
    intro k hbs hc hs
    rcases bs_sorted hc hs k with ⟨j, hj, h1, h2⟩ | ⟨h1, h2⟩
    · rw [hbs] at h1; cases h1
    · exact h2
  cases op with
  | nocheck k v a1 a2 =>
    rcases nocheck_al h hk hv a1 a2 k v hop.1 hop.2 with ⟨b', p, r1, r2, r3, r4⟩ | ⟨b', ss, r0, r1, r2⟩
    · refine ⟨b', _, _, by simp only [step, r1]; rfl, r3, ?_, by simp; omega, r4, fun _ _ => .nocheck (hmid p k v r2)⟩
      have := Touch.addBlind (A := S.take p) (B := S.drop p) (k := k) (v := v) (a1 := a1) (a2 := a2)
      rwa [List.take_append_drop] at this
    · exact ⟨b', _, S, by simp only [step, r1]; rfl, r2, .same, by omega, fun _ h => h,
        fun _ _ => .nocheckFail r0 (List.Perm.refl _)⟩
  | base op =>
    cases op with
    | insert k v a1 a2 =>
      simp only [step, Bmap.step, Bmap.insert, find_al h hk0 k, ok_bind]
      cases hbs : c.bs k (S.map Prod.fst) c.cmp with
      | none =>
        simp only
        rcases nocheck_al h hk hv a1 a2 k v hop.1 hop.2 with ⟨b', p, r1, r2, r3, r4⟩ | ⟨b', ss, r0, r1, r2⟩
        · refine ⟨b', _, _, by simp only [r1]; rfl, r3, ?_, by simp; omega, r4,
            fun hc hs => .insertNew (hnone k hbs hc hs) (hmid p k v r2)⟩
          have := Touch.add (A := S.take p) (B := S.drop p) (k := k) (v := v) (a1 := a1) (a2 := a2)
          rwa [List.take_append_drop] at this
        · exact ⟨b', _, S, by simp only [r1]; rfl, r2, .same, by omega, fun _ h => h,
            fun hc hs => .insertFail (hnone k hbs hc hs) r0 (List.Perm.refl _)⟩
      | some i =>
        have hi := hb k i hbs
        obtain ⟨vs, s1, s2, s3⟩ := set_al h (by rw [hcnt]; exact hv0) hi v hop.2
        simp only [s1, ok_bind]
        refine ⟨_, _, _, rfl, s2, ?_, by simp; omega, fun _ hs => by unfold Srt; rw [s3]; exact hs,
          fun hc hs => .insertOld (hfound k i hbs hc hs hi) (herase i hi) List.perm_middle⟩
        have := Touch.set (A := S.take i) (B := S.drop (i + 1)) (e := S[i]) (k := k) (v := v) (a1 := a1) (a2 := a2)
        rwa [← split_at hi] at this
    | get k =>
      simp only [step, Bmap.step, Bmap.get, find_al h hk0 k, ok_bind]
      cases hbs : c.bs k (S.map Prod.fst) c.cmp with
      | none => exact ⟨_, _, S, rfl, h, .same, by omega, fun _ h => h, fun hc hs => .getNone (hnone k hbs hc hs) (List.Perm.refl _)⟩
      | some i =>
        have hi := hb k i hbs
        have hg := Tglist.get_spec h.values (by rw [hcnt]; exact hv0) (i := i) (by simpa using hi)
        simp only [Bmap.getval, hg, ok_bind]
        refine ⟨_, _, S, rfl, h, .same, by omega, fun _ h => h, fun hc hs => ?_⟩
        have := Step.getSome (S := S) (S' := S) (List.getElem_mem hi) (hfound k i hbs hc hs hi) (List.Perm.refl _)
        simpa using this
    | contains k =>
      simp only [step, Bmap.step, find_al h hk0 k, ok_bind]
      refine ⟨_, _, S, rfl, h, .same, by omega, fun _ h => h, fun hc hs => ?_⟩
      have hst := Step.contains (cmp := c.cmp) (S := S) (S' := S) (k := k) (List.Perm.refl _)
      have : (S.any fun e => c.cmp k e.1 = 0) = (c.bs k (S.map Prod.fst) c.cmp).isSome := by
        cases hbs : c.bs k (S.map Prod.fst) c.cmp with
        | none =>
          simpa using fun a b hab => hnone k hbs hc hs (a, b) hab
        | some i =>
          have hi := hb k i hbs
          have := hfound k i hbs hc hs hi
          simp only [Option.isSome_some, List.any_eq_true, decide_eq_true_eq]
          exact ⟨S[i], List.getElem_mem hi, this⟩
      rwa [this] at hst
    | del k =>
      simp only [step, Bmap.step, find_al h hk0 k, ok_bind]
      cases hbs : c.bs k (S.map Prod.fst) c.cmp with
      | none => exact ⟨_, _, S, rfl, h, .same, by omega, fun _ h => h, fun hc hs => .delNone (hnone k hbs hc hs) (List.Perm.refl _)⟩
      | some i =>
        have hi := hb k i hbs
        obtain ⟨b', d1, d2⟩ := delete_al h hk0 hv0 hi
        simp only [d1, ok_bind]
        refine ⟨_, _, _, rfl, d2, ?_, by simp; omega, fun _ hs => ?_, fun hc hs => .del (hfound k i hbs hc hs hi) (herase i hi)⟩
        · have := Touch.remove (A := S.take i) (B := S.drop (i + 1)) (e := S[i]) (k := k)
          rwa [← split_at hi] at this
        · rw [← List.eraseIdx_eq_take_drop_succ]
          exact hs.sublist ((List.eraseIdx_sublist _ _).map _)

theorem run_safe {c : Cfg} (hbs : InBounds c.bs) : ∀ (ops : List Op) (b : BM) (S : List KV), Al c b S →
    (2 * (S.length + ops.length) + 4) * c.ksz < 2^64 → (2 * (S.length + ops.length) + 4) * c.vsz < 2^64 →
    (∀ op ∈ ops, OpOk c op) →
    ∃ b' rs S', run c b ops = .ok (b', rs) ∧ Touches S ops S' ∧ Al c b' S' ∧ S'.length ≤ S.length + ops.length
  | [], b, S, h, _, _, _ => ⟨b, [], S, rfl, .nil, h, by simp⟩
  | op :: ops, b, S, h, hk, hv, hop => by
    simp only [List.length_cons] at hk hv
    have hkc : b.keys.count = S.length := by rw [h.keys.count]; simp
    obtain ⟨b1, r, S1, h1, h2, h3, h4, _⟩ := step_al h (fun k i hi => by simpa using hbs _ _ _ _ hi) (mul_lt_of hk (by omega)) (mul_lt_of hv (by omega)) op
      (hop op (by simp))
    obtain ⟨b2, rs, S2, r1, r2, r3, r4⟩ := run_safe hbs ops b1 S1 h2 (mul_lt_of hk (by omega)) (mul_lt_of hv (by omega))
      (fun o ho => hop o (by simp [ho]))
    exact ⟨b2, r :: rs, S2, by simp only [run, h1, ok_bind, r1]; rfl, .cons h3 r2, r3, by simp; omega⟩

theorem run_multi {c : Cfg} (hc : CfgOk c) : ∀ (ops : List Op) (b : BM) (S : List KV), Al c b S → Srt c S →
    (2 * (S.length + ops.length) + 4) * c.ksz < 2^64 → (2 * (S.length + ops.length) + 4) * c.vsz < 2^64 →
    (∀ op ∈ ops, OpOk c op) →
    ∃ b' rs S', run c b ops = .ok (b', rs) ∧ Steps c.cmp S ops S' rs ∧ Al c b' S' ∧ Srt c S' ∧
      S'.length ≤ S.length + ops.length
  | [], b, S, h, hs, _, _, _ => ⟨b, [], S, rfl, .nil, h, hs, by simp⟩
  | op :: ops, b, S, h, hs, hk, hv, hop => by
    simp only [List.length_cons] at hk hv
    have hkc : b.keys.count = S.length := by rw [h.keys.count]; simp
    obtain ⟨b1, r, S1, h1, h2, h3, h4, h5, h6⟩ := step_al h (fun k i hi => by
        rcases bs_sorted hc hs k with ⟨j, hj, e1, _⟩ | ⟨e1, _⟩ <;> rw [hi] at e1 <;> cases e1
        exact hj) (mul_lt_of hk (by omega)) (mul_lt_of hv (by omega)) op
      (hop op (by simp))
    obtain ⟨b2, rs, S2, r1, r2, r3, r4, r5⟩ := run_multi hc ops b1 S1 h2 (h5 hc.cmp hs) (mul_lt_of hk (by omega)) (mul_lt_of hv (by omega))
      (fun o ho => hop o (by simp [ho]))
    exact ⟨b2, r :: rs, S2, by simp only [run, h1, ok_bind, r1]; rfl, .cons (h6 hc hs) r2, r3, r4, by simp; omega⟩

theorem lists_of_al {c : Cfg} {b S} (h : Al c b S) (hk : b.keys.count * c.ksz < 2^64)
    (hv : b.keys.count * c.vsz < 2^64) : Lists c b S := by
  have hcnt : b.values.count = b.keys.count := by rw [h.values.count, h.keys.count]; simp
  refine ⟨by rw [h.keys.count]; simp, by rw [h.values.count]; simp, fun i hi => ⟨?_, ?_⟩⟩
  · have := Tglist.get_spec h.keys hk (i := i) (by simpa using hi)
    simpa [Bmap.getkey] using this
  · have := Tglist.get_spec h.values (by rw [hcnt]; exact hv) (i := i) (by simpa using hi)
    simpa [Bmap.getval] using this

theorem mult_perm {cmp : Cmp} {S T : List Entry} (h : S.Perm T) (k) : mult cmp S k = mult cmp T k :=
  (h.filter _).length_eq

theorem mult_cons {cmp : Cmp} {S : List Entry} {e} (k) :
    mult cmp (e :: S) k = mult cmp S k + (if cmp k e.1 = 0 then 1 else 0) := by
  unfold mult
  by_cases h : cmp k e.1 = 0 <;> simp [h]

theorem mult_zero {cmp : Cmp} {S : List Entry} {k} : mult cmp S k = 0 ↔ ∀ e ∈ S, cmp k e.1 ≠ 0 := by
  simp [mult, List.filter_eq_nil_iff]

theorem dels_spec {cmp : Cmp} (k : List Byte) : ∀ (m : Nat) (S S' : List Entry) (rs : List Res),
    Steps cmp S (List.replicate m (.base (.del k))) S' rs →
    rs = (List.range m).map (fun i => Res.bool (decide (i < mult cmp S k))) ∧ mult cmp S' k = mult cmp S k - m
  | 0, S, S', rs, h => by
    cases h
    exact ⟨rfl, by omega⟩
  | m + 1, S, S', rs, h => by
    rw [List.replicate_succ] at h
    cases h with
    | cons h1 h2 =>
      cases h1 with
      | del e1 e2 =>
        obtain ⟨r1, r2⟩ := dels_spec k m _ _ _ h2
        have hm := mult_perm (cmp := cmp) e2 k
        rw [mult_cons, if_pos e1] at hm
        refine ⟨?_, by omega⟩
        rw [r1, List.range_succ_eq_map, hm]
        simp [Function.comp_def]
      | delNone e1 e2 =>
        obtain ⟨r1, r2⟩ := dels_spec k m _ _ _ h2
        have hm := mult_perm (cmp := cmp) e2 k
        have h0 := mult_zero.2 e1
        refine ⟨?_, by omega⟩
        rw [r1, List.range_succ_eq_map, hm, h0]
        simp [Function.comp_def]

end Ulz.Multimap

import Verif.Spec.Badhash
import Verif.Proofs.Hbmap
set_option linter.unusedSimpArgs false
set_option linter.unusedVariables false
namespace Ulz.Badhash
open Ulz.Bmap
open Ulz.Bmap.Spec (View Map lookup CfgOk OpOk mkIter allIters)
open Ulz.Badhash.Spec (Step Steps sameIn)
open Ulz.Sblist (mul_lt_of)
open Ulz.Sblist.Spec (TotalPreorder Sorted)

attribute [local irreducible] mkIter isNone iterBucket iterIndex

/-! The proofs of C40 (Hbmap) for hash functions that may disagree on keys that compare equal. -/

theorem hfind_spec {c : HCfg} (hc : CfgOk c.toCfg) {h Ss} (hv : HView c h Ss) {n : Nat} (hn : SizeLe Ss n)
    (hn32 : n < 2^32) (hb : n * c.ksz < 2^64) (k : List Byte) :
    let b := bidx c Ss k
    ∃ hb : b < Ss.length,
    (∃ i, ∃ hi : i < Ss[b].length, hfind c h k = .ok (mkIter b i) ∧ c.cmp k Ss[b][i].1 = 0 ∧
      hlook c Ss k = some Ss[b][i].2) ∨
    (hfind c h k = .ok (-1#64) ∧ (∀ e ∈ Ss[b], c.cmp k e.1 ≠ 0) ∧ hlook c Ss k = none) := by
  intro b
  have hbl : b < Ss.length := bidx_lt hv k
  refine ⟨hbl, ?_⟩
  have hbh : b < h.length := by rw [hv.len]; exact hbl
  have hb32 : b < 2^32 := by have := hv.small; omega
  have hV := hv.view b hbh
  have hcnt : h[b].keys.count = Ss[b].length := by rw [hV.keys.count]; simp
  have hle := hn Ss[b] (List.getElem_mem _)
  have hg : hlook c Ss k = lookup c.cmp Ss[b] k := by unfold hlook; rw [getD_lt hbl]
  unfold hfind
  rw [buckindex_spec hv]
  simp only [ok_bindE]
  rw [show bidx c Ss k = b from rfl, makeBucket_eq hb32, iterBucket_mk hb32 (by omega), bucket_spec hbh, hg]
  simp only [ok_bindE]
  rcases find_spec hc hV (mul_lt_of hb (by omega)) k with ⟨i, hi, f1, f2, f3⟩ | ⟨f1, f2, f3⟩
  · left
    rw [f1]
    refine ⟨i, hi, ?_, f2, f3⟩
    simp only [ok_bindE, pure_eq_ok, idx64]
    rw [← makeBucket_eq hb32, makeBucket_or hb32 (by omega)]
  · right
    rw [f1]
    refine ⟨?_, f2, f3⟩
    simp only [ok_bindE, pure_eq_ok, idx64, or_neg_one]


theorem hlook_upd {c : HCfg} (hc : CfgOk c.toCfg) {Ss : List (List KV)} {k v : List Byte} {S'}
    (hb : bidx c Ss k < Ss.length) (he : lookup c.cmp S' = Ulz.Bmap.Spec.upd c.cmp (lookup c.cmp Ss[bidx c Ss k]) k v) :
    hlook c (Ss.set (bidx c Ss k) S') = Spec.upd (sameIn c Ss.length) (hlook c Ss) k v := by
  funext k'
  rw [hlook_set hb, he]
  unfold Spec.upd Bmap.Spec.upd sameIn
  by_cases h1 : bidx c Ss k' = bidx c Ss k
  · rw [if_pos h1]
    have h1' : (c.hash k').toNat % Ss.length = (c.hash k).toNat % Ss.length := h1
    by_cases h0 : c.cmp k' k = 0
    · rw [if_pos h0, if_pos (by simp [h0, h1'])]
    · rw [if_neg h0, if_neg (by simp [h0])]
      unfold hlook; rw [h1, getD_lt hb]
  · rw [if_neg h1]
    have h1' : ¬ (c.hash k').toNat % Ss.length = (c.hash k).toNat % Ss.length := h1
    rw [if_neg (by simp [h1'])]

theorem hlook_rem {c : HCfg} (hc : CfgOk c.toCfg) {Ss : List (List KV)} {k : List Byte} {S'}
    (hb : bidx c Ss k < Ss.length) (he : lookup c.cmp S' = Ulz.Bmap.Spec.rem c.cmp (lookup c.cmp Ss[bidx c Ss k]) k) :
    hlook c (Ss.set (bidx c Ss k) S') = Spec.rem (sameIn c Ss.length) (hlook c Ss) k := by
  funext k'
  rw [hlook_set hb, he]
  unfold Spec.rem Bmap.Spec.rem sameIn
  by_cases h1 : bidx c Ss k' = bidx c Ss k
  · rw [if_pos h1]
    have h1' : (c.hash k').toNat % Ss.length = (c.hash k).toNat % Ss.length := h1
    by_cases h0 : c.cmp k' k = 0
    · rw [if_pos h0, if_pos (by simp [h0, h1'])]
    · rw [if_neg h0, if_neg (by simp [h0])]
      unfold hlook; rw [h1, getD_lt hb]
  · rw [if_neg h1]
    have h1' : ¬ (c.hash k').toNat % Ss.length = (c.hash k).toNat % Ss.length := h1
    rw [if_neg (by simp [h1'])]


/-- Outcome of an insertion, including what the returned iterator designates. -/
theorem hinsert_spec {c : HCfg} (hc : CfgOk c.toCfg) {h Ss} (hv : HView c h Ss) {n : Nat} (hn : SizeLe Ss n)
    (hn32 : n + 1 < 2^32) (hk : (2 * n + 4) * c.ksz < 2^64) (hvz : (2 * n + 4) * c.vsz < 2^64) (hm : h.length < 2^32)
    (a1 a2 : Alloc) (k v : List Byte) (hkl : k.length = c.ksz) (hvl : v.length = c.vsz) :
    (∃ h' Ss' b i, hinsert c a1 a2 h k v = .ok (h', mkIter b i) ∧ isNone (mkIter b i) = false ∧ HView c h' Ss' ∧ SizeLe Ss' (n + 1) ∧
      h'.length = h.length ∧ hlook c Ss' = Spec.upd (sameIn c Ss.length) (hlook c Ss) k v ∧
      ∃ (hb : b < Ss'.length) (hi : i < Ss'[b].length), c.cmp k Ss'[b][i].1 = 0 ∧ Ss'[b][i].2 = v) ∨
    (hlook c Ss k = none ∧ (a1 = none ∨ a2 = none) ∧ ∃ h', hinsert c a1 a2 h k v = .ok (h', -1#64) ∧ HView c h' Ss ∧
      h'.length = h.length) := by
  obtain ⟨hbl, hf⟩ := hfind_spec hc hv hn (by omega) (mul_lt_of hk (by omega)) k
  generalize hbdef : bidx c Ss k = b at hbl hf
  have hbh : b < h.length := by rw [hv.len]; exact hbl
  have hb32 : b < 2^32 := by omega
  have hV := hv.view b hbh
  have hcnt : h[b].keys.count = Ss[b].length := by rw [hV.keys.count]; simp
  have hcntv : h[b].values.count = Ss[b].length := by rw [hV.values.count]; simp
  have hle := hn Ss[b] (List.getElem_mem _)
  have hhome : (c.hash k).toNat % h.length = b := by rw [← hbdef, hv.len]; rfl
  unfold hinsert
  rcases hf with ⟨i, hi, f1, f2, f3⟩ | ⟨f1, f2, f3⟩
  · left
    rw [f1]
    have hne : isNone (mkIter b i) = false := mkIter_ne (by omega) (by omega)
    simp only [ok_bindE, hne, Bool.false_eq_true, if_false]
    obtain ⟨vs, s1, s2, s3⟩ := set_view hc hV (mul_lt_of hvz (by omega)) hi v hvl
    unfold hsetvalue
    rw [iterBucket_mk hb32 (by omega), bucket_spec hbh, iterIndex_mk hb32 (by omega)]
    simp only [ok_bindE, s1, pure_eq_ok]
    refine ⟨h.set b { h[b] with values := vs }, Ss.set b (Ss[b].set i (Ss[b][i].1, v)), b, i, rfl, hne, hv.set hbl s2 ?_, ?_, by simp, ?_, by simpa using hbl, by simp; omega, ?_, ?_⟩
    · intro e he
      rcases List.mem_or_eq_of_mem_set he with he | he
      · exact hv.home b hbl e he
      · subst he; exact hv.home b hbl Ss[b][i] (List.getElem_mem _)
    · exact sizeLe_set hn (by simp; omega)
    · have hbl' : bidx c Ss k < Ss.length := by rw [hbdef]; exact hbl
      have := hlook_upd hc (Ss := Ss) (k := k) (v := v) (S' := Ss[b].set i (Ss[b][i].1, v)) hbl' (by
        rw [s3]; simp only [hbdef]; rw [upd_congr hc.cmp f2])
      rwa [hbdef] at this
    · simpa using f2
    · simp
  · rw [f1]
    simp only [ok_bindE, isNone_neg, if_true]
    unfold hinsert_nocheck
    rw [buckindex_spec hv, hbdef]
    simp only [ok_bindE]
    rw [makeBucket_eq hb32, iterBucket_mk hb32 (by omega), bucket_spec hbh]
    simp only [ok_bindE]
    rcases nocheck_spec hc hV (mul_lt_of hk (by omega)) (mul_lt_of hvz (by omega)) a1 a2 k v hkl hvl f2 with
      ⟨b', p, _, _, r1, r2, r3, r4⟩ | ⟨r1, _, r2⟩ | ⟨b', p, _, r0, _, r1, r2, r3⟩
    · left
      rw [r1]
      simp only [ok_bindE, pure_eq_ok, idx64]
      rw [← makeBucket_eq hb32, makeBucket_or hb32 (by omega)]
      refine ⟨h.set b b', Ss.set b (Ss[b].take p ++ (k, v) :: Ss[b].drop p), b, p, rfl, mkIter_ne (by omega) (by omega), hv.set hbl r3 ?_, ?_, by simp, ?_,
        by simpa using hbl, by simp; omega, ?_, ?_⟩
      · intro e he
        rcases List.mem_append.1 he with he | he
        · exact hv.home b hbl e (List.mem_of_mem_take he)
        · rcases List.mem_cons.1 he with rfl | he
          · exact hhome
          · exact hv.home b hbl e (List.mem_of_mem_drop he)
      · exact sizeLe_set hn (by simp; omega)
      · have hbl' : bidx c Ss k < Ss.length := by rw [hbdef]; exact hbl
        have := hlook_upd hc (Ss := Ss) (k := k) (v := v) (S' := Ss[b].take p ++ (k, v) :: Ss[b].drop p) hbl' (by
          rw [r4]; simp only [hbdef])
        rwa [hbdef] at this
      · simp only [List.getElem_set_self]
        rw [List.getElem_append_right (by simp; omega)]; simp [Nat.min_eq_left r2, hc.cmp.refl]
      · simp only [List.getElem_set_self]
        rw [List.getElem_append_right (by simp; omega)]; simp [Nat.min_eq_left r2]
    · right
      rw [r2]
      simp only [ok_bindE, pure_eq_ok, idx64, or_neg_one]
      refine ⟨f3, .inl r1, _, rfl, ?_, by simp⟩
      rw [set_self' hbh]; exact hv
    · right
      rw [r2]
      simp only [ok_bindE, pure_eq_ok, idx64, or_neg_one]
      refine ⟨f3, .inr r0, _, rfl, ?_, by simp⟩
      have := hv.set hbl r3 (fun e he => hv.home b hbl e he)
      rwa [set_self' hbl] at this

theorem hget_spec {c : HCfg} (hc : CfgOk c.toCfg) {h Ss} (hv : HView c h Ss) {n : Nat} (hn : SizeLe Ss n)
    (hn32 : n < 2^32) (hk : n * c.ksz < 2^64) (hvz : n * c.vsz < 2^64) (k : List Byte) :
    hget c h k = .ok (hlook c Ss k) := by
  obtain ⟨hbl, hf⟩ := hfind_spec hc hv hn hn32 hk k
  generalize hbdef : bidx c Ss k = b at hbl hf
  have hbh : b < h.length := by rw [hv.len]; exact hbl
  have hb32 : b < 2^32 := by have := hv.small; omega
  have hV := hv.view b hbh
  have hcntv : h[b].values.count = Ss[b].length := by rw [hV.values.count]; simp
  have hle := hn Ss[b] (List.getElem_mem _)
  unfold hget
  rcases hf with ⟨i, hi, f1, f2, f3⟩ | ⟨f1, f2, f3⟩
  · rw [f1]
    simp only [ok_bindE, mkIter_ne (b := b) (i := i) (by have := hv.small; omega) (by omega), Bool.false_eq_true, if_false]
    unfold hgetval getval
    rw [iterBucket_mk hb32 (by omega), bucket_spec hbh, iterIndex_mk hb32 (by omega)]
    simp only [ok_bindE]
    rw [Tglist.get_spec hV.values (mul_lt_of hvz (by omega)) (i := i) (by simpa using hi), f3]
    simp [pure_eq_ok]
  · rw [f1, f3]
    simp only [ok_bindE, isNone_neg, if_true, pure_eq_ok]

theorem hstep_spec {c : HCfg} (hc : CfgOk c.toCfg) {h Ss} (hv : HView c h Ss) {n : Nat} (hn : SizeLe Ss n)
    (hn32 : n + 1 < 2^32) (hk : (2 * n + 4) * c.ksz < 2^64) (hvz : (2 * n + 4) * c.vsz < 2^64)
    (op : Op) (hop : OpOk c.toCfg op) :
    ∃ h' r Ss', hstep c h op = .ok (h', r) ∧ Step (sameIn c Ss.length) (hlook c Ss) op (hlook c Ss') r ∧ HView c h' Ss' ∧
      SizeLe Ss' (n + 1) ∧ h'.length = h.length := by
  have hk0 : n * c.ksz < 2^64 := mul_lt_of hk (by omega)
  have hv0 : n * c.vsz < 2^64 := mul_lt_of hvz (by omega)
  have hn' : SizeLe Ss (n + 1) := fun S hS => by have := hn S hS; omega
  have hm := hv.small
  cases op with
  | insert k v a1 a2 =>
    rcases hinsert_spec hc hv hn hn32 hk hvz hm a1 a2 k v hop.1 hop.2 with ⟨h', Ss', b, i, r1, r2, r3, r4, r5, r6, _⟩ | ⟨r1, r2, h', r3, r4, r5⟩
    · refine ⟨h', .iter false, Ss', ?_, by rw [r6]; exact .insert, r3, r4, r5⟩
      simp only [hstep, r1, ok_bindE, r2, pure_eq_ok]
    · refine ⟨h', .iter true, Ss, ?_, .insertFail r1 r2, r4, hn', r5⟩
      simp only [hstep, r3, ok_bindE, isNone_neg, pure_eq_ok]
  | get k =>
    exact ⟨h, _, Ss, by simp only [hstep, hget_spec hc hv hn (by omega) hk0 hv0]; rfl, .get, hv, hn', rfl⟩
  | contains k =>
    refine ⟨h, _, Ss, ?_, .contains, hv, hn', rfl⟩
    obtain ⟨hbl, hf⟩ := hfind_spec hc hv hn (by omega) hk0 k
    have hbh : bidx c Ss k < h.length := by rw [hv.len]; exact hbl
    rcases hf with ⟨i, hi, f1, f2, f3⟩ | ⟨f1, f2, f3⟩
    · have hle := hn Ss[bidx c Ss k] (List.getElem_mem _)
      have := mkIter_ne (b := bidx c Ss k) (i := i) (by omega) (by omega)
      simp only [hstep, f1, f3, ok_bindE, this, pure_eq_ok, Bool.not_false, Option.isSome]
    · simp only [hstep, f1, f3, ok_bindE, isNone_neg, pure_eq_ok, Bool.not_true, Option.isSome]
  | del k =>
    obtain ⟨hbl, hf⟩ := hfind_spec hc hv hn (by omega) hk0 k
    have hbh : bidx c Ss k < h.length := by rw [hv.len]; exact hbl
    have hb32 : bidx c Ss k < 2^32 := by omega
    have hle := hn Ss[bidx c Ss k] (List.getElem_mem _)
    have hV := hv.view _ hbh
    have hcnt : h[bidx c Ss k].keys.count = Ss[bidx c Ss k].length := by rw [hV.keys.count]; simp
    have hdel := Step.del (same := sameIn c Ss.length) (M := hlook c Ss) (k := k)
    rcases hf with ⟨i, hi, f1, f2, f3⟩ | ⟨f1, f2, f3⟩
    · obtain ⟨bm, d1, d2, d3⟩ := delete_view hc hV (mul_lt_of hk0 (by omega)) (mul_lt_of hv0 (by omega)) hi
      refine ⟨h.set (bidx c Ss k) bm, .bool true, Ss.set (bidx c Ss k) (Ss[bidx c Ss k].eraseIdx i), ?_, ?_,
        hv.set hbl d2 ?_, sizeLe_set hn ?_, by simp⟩
      · simp only [hstep, f1, ok_bindE]
        simp only [mkIter_ne (b := bidx c Ss k) (i := i) (by omega) (by omega), Bool.false_eq_true, if_false]
        unfold hdelete
        rw [iterBucket_mk hb32 (by omega), bucket_spec hbh, iterIndex_mk hb32 (by omega)]
        simp only [ok_bindE, d1, pure_eq_ok]
      · rw [f3] at hdel
        rw [hlook_rem hc hbl (by rw [d3, rem_congr hc.cmp f2])]
        exact hdel
      · intro e he; exact hv.home _ hbl e (List.mem_of_mem_eraseIdx he)
      · rw [List.length_eraseIdx]; split <;> omega
    · refine ⟨h, .bool false, Ss, by simp only [hstep, f1, ok_bindE, isNone_neg, if_true, pure_eq_ok], ?_, hv, hn', rfl⟩
      rw [f3] at hdel
      have e : Spec.rem (sameIn c Ss.length) (hlook c Ss) k = hlook c Ss := by
        funext x
        unfold Spec.rem sameIn
        split
        · rename_i hx
          simp only [Bool.and_eq_true, decide_eq_true_eq] at hx
          rw [← f3]
          unfold hlook
          have : bidx c Ss x = bidx c Ss k := hx.2
          rw [this, lookup_congr hc.cmp hx.1]
        · rfl
      rw [e] at hdel
      exact hdel

theorem hrun_spec {c : HCfg} (hc : CfgOk c.toCfg) : ∀ (ops : List Op) (h : List BM) (Ss : List (List KV)) (n : Nat),
    HView c h Ss → SizeLe Ss n → n + ops.length < 2^32 →
    (2 * (n + ops.length) + 4) * c.ksz < 2^64 → (2 * (n + ops.length) + 4) * c.vsz < 2^64 →
    (∀ op ∈ ops, OpOk c.toCfg op) →
    ∃ h' rs Ss', hrun c h ops = .ok (h', rs) ∧ Steps (sameIn c Ss.length) (hlook c Ss) ops (hlook c Ss') rs ∧ HView c h' Ss' ∧
      SizeLe Ss' (n + ops.length) ∧ h'.length = h.length
  | [], h, Ss, n, hv, hn, _, _, _, _ => ⟨h, [], Ss, rfl, .nil, hv, by simpa using hn, rfl⟩
  | op :: ops, h, Ss, n, hv, hn, h32, hk, hvz, hop => by
    simp only [List.length_cons] at hk hvz h32
    obtain ⟨h1, r, Ss1, e1, e2, e3, e4, e5⟩ := hstep_spec hc hv hn (by omega) (mul_lt_of hk (by omega)) (mul_lt_of hvz (by omega)) op
      (hop op (by simp))
    obtain ⟨h2, rs, Ss2, r1, r2, r3, r4, r5⟩ := hrun_spec hc ops h1 Ss1 (n + 1) e3 e4 (by omega) (mul_lt_of hk (by omega))
      (mul_lt_of hvz (by omega)) (fun o ho => hop o (by simp [ho]))
    have hl : Ss1.length = Ss.length := by rw [← e3.len, ← hv.len, e5]
    refine ⟨h2, r :: rs, Ss2, by simp only [hrun, e1, ok_bindE, r1]; rfl, .cons e2 (hl ▸ r2), r3, ?_, by omega⟩
    intro S hS
    have := r4 S hS
    simp; omega

theorem hinit_view {c : HCfg} (hc : CfgOk c.toCfg) {n : Nat} (h0 : 0 < n) (h1 : n < 2^32) :
    HView c (hinit n) (List.replicate n []) := by
  refine ⟨by simp [hinit], by simpa [hinit] using h0, by simpa [hinit] using h1, ?_, ?_⟩
  · intro i hi
    simp only [hinit, List.getElem_replicate]
    exact init_view hc
  · intro i hi e he
    simp at he

theorem hlook_entry {c : HCfg} (hc : CfgOk c.toCfg) {h Ss} (hv : HView c h Ss) {b i : Nat} (hb : b < Ss.length)
    (hi : i < Ss[b].length) : hlook c Ss Ss[b][i].1 = some Ss[b][i].2 := by
  unfold hlook
  rw [bidx_entry hv hb hi, getD_lt hb]
  have hbh : b < h.length := by rw [hv.len]; exact hb
  rw [lookup_some hc.cmp (hv.view b hbh).sorted]
  exact ⟨_, List.getElem_mem hi, hc.cmp.refl _, rfl⟩

theorem entry_unique {c : HCfg} (hc : CfgOk c.toCfg) {h Ss} (hv : HView c h Ss) {b i b' i' : Nat} (hb : b < Ss.length)
    (hi : i < Ss[b].length) (hb' : b' < Ss.length) (hi' : i' < Ss[b'].length)
    (h0 : c.cmp Ss[b][i].1 Ss[b'][i'].1 = 0)
    (h1 : (c.hash Ss[b][i].1).toNat % Ss.length = (c.hash Ss[b'][i'].1).toNat % Ss.length) : mkIter b i = mkIter b' i' := by
  have e : b = b' := by
    rw [← bidx_entry hv hb hi, ← bidx_entry hv hb' hi']
    unfold bidx
    rw [h1]
  subst e
  have hbh : b < h.length := by rw [hv.len]; exact hb
  have hs := (hv.view b hbh).sorted
  rw [List.pairwise_iff_getElem] at hs
  have : i = i' := by
    rcases Nat.lt_trichotomy i i' with h1 | h1 | h1
    · have := hs i i' hi hi' h1; omega
    · exact h1
    · have := hs i' i hi' hi h1
      have := cmp_symm hc.cmp h0
      omega
  rw [this]


end Ulz.Badhash

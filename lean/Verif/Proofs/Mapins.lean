import Verif.Proofs.Mapdel
import Verif.Spec.Mapins
set_option linter.unusedSimpArgs false
set_option linter.unusedVariables false
namespace Ulz.Bmap
open Spec
open Ulz.Sblist (mul_lt_of)
open Ulz.Sblist.Spec (TotalPreorder Sorted)
attribute [local irreducible] mkIter isNone iterBucket iterIndex

/-- The key at position `j` of bucket `b`. -/
def keyAt (Ss : List (List KV)) (b j : Nat) : Option (List Byte) := ((Ss.getD b [])[j]?).map Prod.fst

theorem keyAt_set {Ss : List (List KV)} {b : Nat} (hb : b < Ss.length) (S' : List KV) (b' j : Nat) :
    keyAt (Ss.set b S') b' j = if b' = b then (S'[j]?).map Prod.fst else keyAt Ss b' j := by
  unfold keyAt
  simp only [List.getD_eq_getElem?_getD, List.getElem?_set]
  by_cases h : b' = b
  · subst h; simp [hb]
  · rw [if_neg (fun e => h e.symm), if_neg h]

theorem keyAt_some {Ss : List (List KV)} {b j : Nat} {k} (h : keyAt Ss b j = some k) :
    ∃ (hb : b < Ss.length) (hj : j < Ss[b].length), Ss[b][j].1 = k := by
  unfold keyAt at h
  by_cases hb : b < Ss.length
  · refine ⟨hb, ?_⟩
    rw [getD_lt hb] at h
    obtain ⟨e, he, rfl⟩ := Option.map_eq_some_iff.1 h
    obtain ⟨hj, e2⟩ := List.getElem?_eq_some_iff.1 he
    exact ⟨hj, by rw [e2]⟩
  · simp [List.getD_eq_getElem?_getD, List.getElem?_eq_none (Nat.le_of_not_lt hb)] at h

theorem keyAt_get {Ss : List (List KV)} {b j : Nat} (hb : b < Ss.length) (hj : j < Ss[b].length) :
    keyAt Ss b j = some Ss[b][j].1 := by
  unfold keyAt
  rw [getD_lt hb, List.getElem?_eq_getElem hj]
  rfl

theorem keyAt_home {c : HCfg} {h Ss} (hv : HView c h Ss) {b j k} (hk : keyAt Ss b j = some k) :
    home c Ss.length k = b := by
  obtain ⟨hb, hj, rfl⟩ := keyAt_some hk
  have := hv.home b hb _ (List.getElem_mem hj)
  rw [hv.len] at this
  exact this

theorem keyAt_lt {c : HCfg} {h Ss} (hv : HView c h Ss) {b j j' k k'} (hk : keyAt Ss b j = some k)
    (hk' : keyAt Ss b j' = some k') (hlt : j < j') : c.cmp k k' < 0 := by
  obtain ⟨hb, hj, rfl⟩ := keyAt_some hk
  obtain ⟨_, hj', rfl⟩ := keyAt_some hk'
  exact List.pairwise_iff_getElem.1 (hv.view b (by rw [hv.len]; exact hb)).sorted j j' hj hj' hlt

/-- What an insertion of `k` may do to the keys. -/
def Grow (c : HCfg) (Ss Ss' : List (List KV)) (k : List Byte) : Prop :=
  (∀ b j, keyAt Ss' b j = keyAt Ss b j) ∨
  ∃ p, (∀ b j, keyAt Ss b j ≠ some k) ∧ ∀ b j, keyAt Ss' b j =
    if b = home c Ss.length k then (if j < p then keyAt Ss b j else if j = p then some k else keyAt Ss b (j - 1))
    else keyAt Ss b j

theorem remain_set_le {Ss : List (List KV)} {b : Nat} (hb : b < Ss.length) {S' : List KV}
    (hl : S'.length ≤ Ss[b].length + 1) (b' : Nat) : remain (Ss.set b S') b' ≤ remain Ss b' + 1 := by
  unfold remain
  rw [List.drop_set]
  split
  · omega
  · rename_i h
    have hd : b - b' < (Ss.drop b').length := by simp; omega
    have e : (Ss.drop b')[b - b'] = Ss[b] := by rw [List.getElem_drop]; congr 1; omega
    generalize hL : Ss.drop b' = L at hd e ⊢
    generalize b - b' = m at hd e ⊢
    rw [← e] at hl
    clear e hL h
    induction L generalizing m with
    | nil => simp at hd
    | cons T L ih =>
      cases m with
      | zero => simp at hl ⊢; omega
      | succ m =>
        simp only [List.set_cons_succ, List.map_cons, List.sum_cons]
        have := ih m (by simpa using hd) (by simpa using hl)
        omega

theorem hinsert_grow {c : HCfg} (hc : HCfgOk c) {h Ss} (hv : HView c h Ss) {n : Nat} (hn : SizeLe Ss n)
    (hn32 : n + 1 < 2^32) (hk : (2 * n + 4) * c.ksz < 2^64) (hvz : (2 * n + 4) * c.vsz < 2^64)
    (a1 a2 : Alloc) (k v : List Byte) (hkl : k.length = c.ksz) (hvl : v.length = c.vsz) :
    ∃ h' it Ss', hinsert c a1 a2 h k v = .ok (h', it) ∧ HView c h' Ss' ∧ SizeLe Ss' (n + 1) ∧
      HStep c.cmp (hlook c Ss) (.insert k v a1 a2) (hlook c Ss') (.iter (isNone it)) ∧
      Ss'.length = Ss.length ∧ (∀ b, remain Ss' b ≤ remain Ss b + 1) ∧ Grow c Ss Ss' k := by
  have hm := hv.small
  obtain ⟨hbl, hf⟩ := hfind_spec hc hv hn (by omega) (mul_lt_of hk (by omega)) k
  have hhm : home c Ss.length k = bidx c Ss k := rfl
  generalize hbdef : bidx c Ss k = b at hbl hf hhm
  have hbh : b < h.length := by rw [hv.len]; exact hbl
  have hb32 : b < 2^32 := by omega
  have hV := hv.view b hbh
  have hcnt : h[b].keys.count = Ss[b].length := by rw [hV.keys.count]; simp
  have hcntv : h[b].values.count = Ss[b].length := by rw [hV.values.count]; simp
  have hle := hn Ss[b] (List.getElem_mem _)
  have hhome : (c.hash k).toNat % h.length = b := by rw [← hbdef, hv.len]; rfl
  unfold hinsert
  rcases hf with ⟨i, hi, f1, f2, f3⟩ | ⟨f1, f2, f3⟩
  · rw [f1]
    have hne : isNone (mkIter b i) = false := mkIter_ne (by omega) (by omega)
    simp only [ok_bindE, hne, Bool.false_eq_true, if_false]
    obtain ⟨vs, s1, s2, s3⟩ := set_view hc.toCfgOk hV (mul_lt_of hvz (by omega)) hi v hvl
    unfold hsetvalue
    rw [iterBucket_mk hb32 (by omega), bucket_spec hbh, iterIndex_mk hb32 (by omega)]
    simp only [ok_bindE, s1, pure_eq_ok]
    refine ⟨h.set b { h[b] with values := vs }, mkIter b i, Ss.set b (Ss[b].set i (Ss[b][i].1, v)), rfl, hv.set hbl s2 ?_, ?_, ?_,
      by simp, remain_set_le hbl (by simp), .inl ?_⟩
    · intro e he
      rcases List.mem_or_eq_of_mem_set he with he | he
      · exact hv.home b hbl e he
      · subst he; exact hv.home b hbl Ss[b][i] (List.getElem_mem _)
    · exact sizeLe_set hn (by simp; omega)
    · have hbl' : bidx c Ss k < Ss.length := by rw [hbdef]; exact hbl
      have := hlook_upd hc (Ss := Ss) (k := k) (v := v) (S' := Ss[b].set i (Ss[b][i].1, v)) hbl' (by
        rw [s3]; simp only [hbdef]; rw [upd_congr hc.cmp f2])
      rw [hbdef] at this
      rw [this, hne]
      exact .insert
    · intro b' j
      rw [keyAt_set hbl]
      split
      · rename_i e; subst e
        unfold keyAt
        rw [getD_lt hbl, List.getElem?_set]
        split
        · rename_i e; subst e; rw [List.getElem?_eq_getElem hi]; rfl
        · rfl
      · rfl
  · rw [f1]
    simp only [ok_bindE, isNone_neg, if_true]
    unfold hinsert_nocheck
    rw [buckindex_spec hv, hbdef]
    simp only [ok_bindE]
    rw [makeBucket_eq hb32, iterBucket_mk hb32 (by omega), bucket_spec hbh]
    simp only [ok_bindE]
    rcases nocheck_spec hc.toCfgOk hV (mul_lt_of hk (by omega)) (mul_lt_of hvz (by omega)) a1 a2 k v hkl hvl f2 with
      ⟨b', p, _, _, r1, r2, r3, r4⟩ | ⟨r1, _, r2⟩ | ⟨b', p, _, r0, _, r1, r2, r3⟩
    · rw [r1]
      simp only [ok_bindE, pure_eq_ok, idx64]
      rw [← makeBucket_eq hb32, makeBucket_or hb32 (by omega)]
      refine ⟨h.set b b', mkIter b p, Ss.set b (Ss[b].take p ++ (k, v) :: Ss[b].drop p), rfl, hv.set hbl r3 ?_, ?_, ?_,
        by simp, remain_set_le hbl (by simp; omega), .inr ⟨p, ?_, ?_⟩⟩
      · intro e he
        rcases List.mem_append.1 he with he | he
        · exact hv.home b hbl e (List.mem_of_mem_take he)
        · rcases List.mem_cons.1 he with rfl | he
          · exact hhome
          · exact hv.home b hbl e (List.mem_of_mem_drop he)
      · exact sizeLe_set hn (by simp; omega)
      · have hbl' : bidx c Ss k < Ss.length := by rw [hbdef]; exact hbl
        have := hlook_upd hc (Ss := Ss) (k := k) (v := v) (S' := Ss[b].take p ++ (k, v) :: Ss[b].drop p) hbl' (by
          rw [r4]; simp only [hbdef])
        rw [hbdef] at this
        rw [this, mkIter_ne (by omega) (by omega)]
        exact .insert
      · intro b2 j hkk
        have e := keyAt_home hv hkk
        rw [hhm] at e
        subst e
        obtain ⟨_, hj, e⟩ := keyAt_some hkk
        have := f2 _ (List.getElem_mem hj)
        rw [e] at this
        exact this (hc.cmp.refl k)
      · intro b2 j
        rw [keyAt_set hbl, hhm]
        split
        · rename_i e; subst e
          unfold keyAt
          rw [getD_lt hbl]
          by_cases h1 : j < p
          · rw [if_pos h1, List.getElem?_append_left (by simp; omega), List.getElem?_take_of_lt h1]
          · rw [if_neg h1, List.getElem?_append_right (by simp; omega)]
            simp only [List.length_take, Nat.min_eq_left r2]
            by_cases h2 : j = p
            · subst h2; simp
            · rw [if_neg h2, show j - p = (j - 1 - p) + 1 by omega, List.getElem?_cons_succ, List.getElem?_drop]
              congr 2; omega
        · rfl
    · rw [r2]
      simp only [ok_bindE, pure_eq_ok, idx64, or_neg_one]
      refine ⟨_, _, Ss, rfl, ?_, fun S hS => by have := hn S hS; omega, ?_, rfl, fun b => by omega, .inl fun _ _ => rfl⟩
      · rw [set_self' hbh]; exact hv
      · rw [isNone_neg]; exact .insertFail f3 (.inl r1)
    · rw [r2]
      simp only [ok_bindE, pure_eq_ok, idx64, or_neg_one]
      refine ⟨_, _, Ss, rfl, ?_, fun S hS => by have := hn S hS; omega, ?_, rfl, fun b => by omega, .inl fun _ _ => rfl⟩
      · have := hv.set hbl r3 (fun e he => hv.home b hbl e he)
        rwa [set_self' hbl] at this
      · rw [isNone_neg]; exact .insertFail f3 (.inr r0)

theorem insertAll_spec {c : HCfg} (hc : HCfgOk c) : ∀ (is : List Ins) (h : List BM) (Ss : List (List KV)) (n : Nat),
    HView c h Ss → SizeLe Ss n → n + is.length < 2^32 → (2 * (n + is.length) + 4) * c.ksz < 2^64 →
    (2 * (n + is.length) + 4) * c.vsz < 2^64 → (∀ i ∈ is, i.key.length = c.ksz ∧ i.val.length = c.vsz) →
    ∃ h' Ss' rs, insertAll c h is = .ok h' ∧ HView c h' Ss' ∧ SizeLe Ss' (n + is.length) ∧
      HSteps c.cmp (hlook c Ss) (is.map insOp) (hlook c Ss') rs ∧ Ss'.length = Ss.length ∧
      (∀ b, remain Ss' b ≤ remain Ss b + is.length) ∧
      ∀ (P : List (List KV) → Prop), (∀ Ss1 Ss2 h1 h2, ∀ i ∈ is, HView c h1 Ss1 → HView c h2 Ss2 → Ss2.length = Ss1.length →
        Grow c Ss1 Ss2 i.key → P Ss1 → P Ss2) → P Ss → P Ss'
  | [], h, Ss, n, hv, hn, _, _, _, _ => ⟨h, Ss, [], rfl, hv, by simpa using hn, .nil, rfl, fun b => by simp, fun P _ hP => hP⟩
  | i :: is, h, Ss, n, hv, hn, h32, hk, hvz, hok => by
    simp only [List.length_cons] at h32 hk hvz ⊢
    obtain ⟨h1, it, Ss1, r1, r2, r3, r4, r5, r6, r7⟩ := hinsert_grow hc hv hn (by omega) (mul_lt_of hk (by omega))
      (mul_lt_of hvz (by omega)) i.a1 i.a2 i.key i.val (hok i (by simp)).1 (hok i (by simp)).2
    obtain ⟨h2, Ss2, rs, g1, g2, g3, g4, g5, g6, g7⟩ := insertAll_spec hc is h1 Ss1 (n + 1) r2 r3 (by omega)
      (mul_lt_of hk (by omega)) (mul_lt_of hvz (by omega)) (fun j hj => hok j (by simp [hj]))
    refine ⟨h2, Ss2, _ :: rs, ?_, g2, ?_, .cons r4 g4, by omega, fun b => by have := r6 b; have := g6 b; omega, ?_⟩
    · unfold insertAll
      rw [r1]
      simp only [ok_bindE]
      exact g1
    · rw [show n + (is.length + 1) = n + 1 + is.length by omega]; exact g3
    · intro P hP h0
      exact g7 P (fun A B ha hb j hj => hP A B ha hb j (by simp [hj])) (hP Ss Ss1 h h1 i (by simp) hv r2 r5 r7 h0)

/-! ### Invariants of the loop -/

theorem insFrom_append (body : List KV → List Ins) : ∀ (T2 T T3 : List KV),
    insFrom body T (T2 ++ T3) = insFrom body T T2 ++ insFrom body (T ++ T2) T3
  | [], T, T3 => by simp [insFrom]
  | x :: T2, T, T3 => by
    simp only [List.cons_append, insFrom]
    rw [insFrom_append body T2 (T ++ [x]) T3]
    simp

theorem insOf_append (body : List KV → List Ins) (T T2 : List KV) :
    insOf body (T ++ T2) = insOf body T ++ insFrom body T T2 := by
  unfold insOf
  rw [insFrom_append]; simp

theorem behind_mono {c : HCfg} {N : Nat} {body : List KV → List Ins} {T T2 : List KV} {e} (h : Behind c N body T e) :
    Behind c N body (T ++ T2) e := by
  obtain ⟨m, x, h1, h2, h3⟩ := h
  have hm := (List.getElem?_eq_some_iff.1 h1).1
  refine ⟨m, x, by rw [List.getElem?_append_left hm]; exact h1, ?_, h3⟩
  rw [List.take_append_of_le_length (by omega)]
  exact h2

def Acc (c : HCfg) (N : Nat) (body : List KV → List Ins) (E0 : List Byte → Prop) (T : List KV) (Ss : List (List KV))
    (b i : Nat) : Prop :=
  ∀ b' j e, keyAt Ss b' j = some e →
    (b < b' ∨ (b' = b ∧ i ≤ j)) ∨ e ∈ T.map Prod.fst ∨ (Behind c N body T e ∧ ¬ E0 e)

def Pres (E0 : List Byte → Prop) (Ss : List (List KV)) : Prop := ∀ e, E0 e → ∃ b j, keyAt Ss b j = some e

theorem grow_keep {c : HCfg} {Ss Ss' : List (List KV)} {k : List Byte} (hg : Grow c Ss Ss' k) {b j e}
    (h : keyAt Ss b j = some e) : ∃ j', j ≤ j' ∧ keyAt Ss' b j' = some e := by
  rcases hg with hg | ⟨p, _, hg⟩
  · exact ⟨j, Nat.le_refl _, by rw [hg]; exact h⟩
  · by_cases hb : b = home c Ss.length k
    · by_cases hj : j < p
      · exact ⟨j, Nat.le_refl _, by rw [hg, if_pos hb, if_pos hj]; exact h⟩
      · exact ⟨j + 1, by omega, by rw [hg, if_pos hb, if_neg (by omega), if_neg (by omega)]; exact h⟩
    · exact ⟨j, Nat.le_refl _, by rw [hg, if_neg hb]; exact h⟩

/-- While the body runs: nothing gets lost. -/
theorem acc_step {c : HCfg} {N : Nat} {body : List KV → List Ins} {E0 : List Byte → Prop} {T : List KV} {x : KV} {b i : Nat}
    {Ss1 Ss2 h1 h2} {ins : Ins} (hi : ins ∈ body (T ++ [x])) (hv1 : HView c h1 Ss1) (hv2 : HView c h2 Ss2)
    (hl : Ss2.length = Ss1.length) (hg : Grow c Ss1 Ss2 ins.key)
    (hP : Ss1.length = N ∧ (∃ i', i ≤ i' ∧ keyAt Ss1 b i' = some x.1) ∧ Pres E0 Ss1 ∧ Acc c N body E0 (T ++ [x]) Ss1 b (i + 1)) :
    Ss2.length = N ∧ (∃ i', i ≤ i' ∧ keyAt Ss2 b i' = some x.1) ∧ Pres E0 Ss2 ∧ Acc c N body E0 (T ++ [x]) Ss2 b (i + 1) := by
  obtain ⟨hN, ⟨i', hi', hx⟩, hpr, hacc⟩ := hP
  obtain ⟨i2, hi2, hx2⟩ := grow_keep hg hx
  refine ⟨by omega, ⟨i2, by omega, hx2⟩, ?_, ?_⟩
  · intro e he
    obtain ⟨b', j, h⟩ := hpr e he
    obtain ⟨j', _, h'⟩ := grow_keep hg h
    exact ⟨b', j', h'⟩
  · intro b' j e he
    rcases hg with hg | ⟨p, hnew, hg⟩
    · rw [hg] at he
      exact hacc b' j e he
    · have he' := he
      rw [hg] at he'
      by_cases hb : b' = home c Ss1.length ins.key
      · rw [if_pos hb] at he'
        by_cases hj : j < p
        · rw [if_pos hj] at he'
          exact hacc b' j e he'
        · rw [if_neg hj] at he'
          by_cases hjp : j = p
          · rw [if_pos hjp] at he'
            simp only [Option.some.injEq] at he'
            subst he'
            by_cases hlex : b < b' ∨ (b' = b ∧ i + 1 ≤ j)
            · exact .inl hlex
            · refine .inr (.inr ⟨⟨T.length, x, by simp, ⟨ins, by rw [List.take_of_length_le (by simp)]; exact hi, rfl⟩, ?_⟩, ?_⟩)
              · have hxh := keyAt_home hv1 hx
                rw [hN] at hxh hb
                unfold Before
                rw [← hb, hxh]
                by_cases hbb : b' < b
                · exact .inl hbb
                · have e : b' = b := by omega
                  subst e
                  refine .inr ⟨rfl, ?_⟩
                  have hx3 : keyAt Ss2 b' (i' + 1) = some x.1 := by
                    rw [hg, hN, if_pos hb, if_neg (by omega), if_neg (by omega)]; exact hx
                  exact keyAt_lt hv2 he hx3 (by omega)
              · intro h0
                obtain ⟨b3, j3, h3⟩ := hpr _ h0
                exact hnew b3 j3 h3
          · rw [if_neg hjp] at he'
            rcases hacc b' (j - 1) e he' with (h | ⟨h, h'⟩) | h
            · exact .inl (.inl h)
            · exact .inl (.inr ⟨h, by omega⟩)
            · exact .inr h
      · rw [if_neg hb] at he'
        exact hacc b' j e he'

/-- While a body runs that inserts nothing smaller into the present bucket: the entries up to the present one stay. -/
theorem fwd_step {c : HCfg} {N : Nat} {Ss0 Ss1 Ss2 : List (List KV)} {h1 h2} {b i : Nat} {x k : List Byte}
    (hx : keyAt Ss0 b i = some x) (hk : home c N k = home c N x → 0 ≤ c.cmp k x) (hv1 : HView c h1 Ss1) (hv2 : HView c h2 Ss2)
    (hl : Ss2.length = Ss1.length) (hg : Grow c Ss1 Ss2 k)
    (hP : Ss1.length = N ∧ ∀ j, j ≤ i → keyAt Ss1 b j = keyAt Ss0 b j) :
    Ss2.length = N ∧ ∀ j, j ≤ i → keyAt Ss2 b j = keyAt Ss0 b j := by
  obtain ⟨hN, hP⟩ := hP
  refine ⟨by omega, ?_⟩
  intro j hj
  have hx1 : keyAt Ss1 b i = some x := by rw [hP i (Nat.le_refl _)]; exact hx
  rcases hg with hg | ⟨p, hnew, hg⟩
  · rw [hg, hP j hj]
  · by_cases hb : b = home c Ss1.length k
    · have hp : i < p := by
        apply Classical.byContradiction
        intro hp
        have h1 : keyAt Ss2 b p = some k := by rw [hg, if_pos hb, if_neg (by omega), if_pos rfl]
        have h2 : keyAt Ss2 b (i + 1) = some x := by
          rw [hg, if_pos hb, if_neg (by omega), if_neg (by omega)]; exact hx1
        have h3 := keyAt_lt hv2 h1 h2 (by omega)
        have h4 := keyAt_home hv1 hx1
        rw [hN] at h4 hb
        have := hk (by omega)
        omega
      rw [hg, if_pos hb, if_pos (by omega), hP j hj]
    · rw [hg, if_neg hb, hP j hj]

/-- The body inserts nothing smaller into the present bucket. -/
def Fwd (c : HCfg) (N : Nat) (body : List KV → List Ins) : Prop :=
  ∀ T x, ∀ i ∈ body (T ++ [x]), home c N i.key = home c N x.1 → 0 ≤ c.cmp i.key x.1

structure LoopInv (c : HCfg) (N n0 : Nat) (body : List KV → List Ins) (E0 : List Byte → Prop) (h : List BM)
    (Ss : List (List KV)) (b i : Nat) (T : List KV) : Prop where
  view : HView c h Ss
  size : SizeLe Ss (n0 + (insOf body T).length)
  len : Ss.length = N
  pres : Pres E0 Ss
  acc : Acc c N body E0 T Ss b i
  ord : Fwd c N body → T.Pairwise (fun x y => Before c N x.1 y.1) ∧
    ∀ t ∈ T, home c N t.1 < b ∨ ∃ j, j < i ∧ keyAt Ss b j = some t.1

def LoopEnd (c : HCfg) (N n0 R : Nat) (body : List KV → List Ins) (E0 : List Byte → Prop) (Ss : List (List KV))
    (T : List KV) (r : C (List BM × List KV)) : Prop :=
  ∃ h' Ss' T2 rs, r = .ok (h', T ++ T2) ∧ HView c h' Ss' ∧ SizeLe Ss' (n0 + (insOf body (T ++ T2)).length) ∧
    HSteps c.cmp (hlook c Ss) ((insFrom body T T2).map insOp) (hlook c Ss') rs ∧ Pres E0 Ss' ∧
    (∀ b j e, keyAt Ss' b j = some e → e ∈ (T ++ T2).map Prod.fst ∨ (Behind c N body (T ++ T2) e ∧ ¬ E0 e)) ∧
    (Fwd c N body → (T ++ T2).Pairwise fun x y => Before c N x.1 y.1) ∧
    T2.length ≤ R + (insFrom body T T2).length ∧ remain Ss' 0 ≤ remain Ss 0 + (insFrom body T T2).length

theorem hsteps_append {cmp : List Byte → List Byte → Int} {M M' M'' : Map} {a b : List Op} {r s : List HRes}
    (h1 : HSteps cmp M a M' r) (h2 : HSteps cmp M' b M'' s) : HSteps cmp M (a ++ b) M'' (r ++ s) := by
  induction h1 with
  | nil => exact h2
  | cons h _ ih => exact .cons h (ih h2)

theorem keyAt_none_of_size {Ss : List (List KV)} {b j : Nat} {e} (h : keyAt Ss b j = some e) :
    ∃ hb : b < Ss.length, j < Ss[b].length := by
  obtain ⟨hb, hj, _⟩ := keyAt_some h
  exact ⟨hb, hj⟩

theorem insertLoopFrom_spec {c : HCfg} (hc : HCfgOk c) {N n0 I : Nat} {body : List KV → List Ins} {E0 : List Byte → Prop}
    (hI : ∀ T, (insOf body T).length ≤ I) (hok : ∀ T, ∀ i ∈ body T, i.key.length = c.ksz ∧ i.val.length = c.vsz)
    (h32 : n0 + I < 2^32) (hk : (2 * (n0 + I) + 4) * c.ksz < 2^64) (hvz : (2 * (n0 + I) + 4) * c.vsz < 2^64) :
    ∀ (fuel : Nat),
    (∀ h Ss b i T (hb : b < Ss.length), i < Ss[b].length → LoopInv c N n0 body E0 h Ss b i T →
      (remain Ss b - i) + (I - (insOf body T).length) < fuel →
      LoopEnd c N n0 (remain Ss b - i) body E0 Ss T (insertLoopFrom c body fuel h (mkIter b i) T)) ∧
    (∀ h Ss b it T, First h b it → b ≤ Ss.length → LoopInv c N n0 body E0 h Ss b 0 T →
      remain Ss b + (I - (insOf body T).length) < fuel →
      LoopEnd c N n0 (remain Ss b) body E0 Ss T (insertLoopFrom c body fuel h it T))
  | 0 => ⟨fun _ _ _ _ _ _ _ _ h => by omega, fun _ _ _ _ _ _ _ _ h => by omega⟩
  | fuel + 1 => by
    obtain ⟨ih1, ih2⟩ := insertLoopFrom_spec hc hI hok h32 hk hvz fuel (E0 := E0) (N := N)
    have hA : ∀ h Ss b i T (hb : b < Ss.length), i < Ss[b].length → LoopInv c N n0 body E0 h Ss b i T →
        (remain Ss b - i) + (I - (insOf body T).length) < fuel + 1 →
        LoopEnd c N n0 (remain Ss b - i) body E0 Ss T (insertLoopFrom c body (fuel + 1) h (mkIter b i) T) := by
      intro h Ss b i T hb hi inv hf
      have hv := inv.view
      have hbh : b < h.length := by rw [hv.len]; exact hb
      have hl := hv.small
      have hIT := hI T
      have hsz := sizeLe_sub hb inv.size
      obtain ⟨_, k1, k2⟩ := entry_spec hv inv.size (by omega) (mul_lt_of hk (by omega)) (mul_lt_of hvz (by omega)) hb hi
      have hrc := remain_cons hb
      generalize hxd : Ss[b][i] = x at k1 k2
      have hx : keyAt Ss b i = some x.1 := by rw [keyAt_get hb hi, hxd]
      have hIT' := hI (T ++ [x])
      have hap := insOf_append body T [x]
      have hone : insFrom body T [x] = body (T ++ [x]) := by simp [insFrom]
      rw [hone] at hap
      have hapl : (insOf body (T ++ [x])).length = (insOf body T).length + (body (T ++ [x])).length := by rw [hap]; simp
      unfold insertLoopFrom iterValid
      rw [bucketValid_spec (by omega) (by omega), if_pos (by simpa using hbh), indexValid_spec hbh (by omega) (by omega),
        bsize_view hv hb]
      simp only [ok_bindE]
      rw [if_pos (by simpa using hi), k1, k2]
      simp only [ok_bindE]
      obtain ⟨h1, Ss1, rs1, g1, g2, g3, g4, g5, g6, g7⟩ := insertAll_spec hc (body (T ++ [x])) h Ss _ hv inv.size (by omega)
        (mul_lt_of hk (by omega)) (mul_lt_of hvz (by omega)) (hok _)
      rw [show (x.1, x.2) = x from rfl, g1]
      simp only [ok_bindE]
      have q1 := g7 (fun S => S.length = N ∧ (∃ i', i ≤ i' ∧ keyAt S b i' = some x.1) ∧ Pres E0 S ∧
          Acc c N body E0 (T ++ [x]) S b (i + 1))
        (fun A B ha hb' j hj v1 v2 l g P => acc_step hj v1 v2 l g P)
        ⟨inv.len, ⟨i, Nat.le_refl _, hx⟩, inv.pres, by
          intro b' j e he
          rcases inv.acc b' j e he with (h' | ⟨h', h''⟩) | h' | ⟨h', h''⟩
          · exact .inl (.inl h')
          · by_cases hj : j = i
            · subst hj; subst h'
              rw [hx] at he
              simp only [Option.some.injEq] at he
              exact .inr (.inl (by simp [he]))
            · exact .inl (.inr ⟨h', by omega⟩)
          · rw [List.map_append]
            exact .inr (.inl (List.mem_append_left _ h'))
          · exact .inr (.inr ⟨behind_mono h', h''⟩)⟩
      obtain ⟨q0, ⟨i', hi', hx'⟩, qpr, qacc⟩ := q1
      have hb1 : b < Ss1.length := by omega
      have hbh1 : b < h1.length := by rw [g2.len]; exact hb1
      obtain ⟨_, hil⟩ := keyAt_none_of_size hx'
      have hord : Fwd c N body → (T ++ [x]).Pairwise (fun x y => Before c N x.1 y.1) ∧
          ∀ t ∈ T ++ [x], home c N t.1 < b ∨ ∃ j, j < i + 1 ∧ keyAt Ss1 b j = some t.1 := by
        intro hF
        obtain ⟨o1, o2⟩ := inv.ord hF
        have q2 := (g7 (fun S => S.length = N ∧ ∀ j, j ≤ i → keyAt S b j = keyAt Ss b j)
          (fun A B ha hb' j hj v1 v2 l g P => fwd_step hx (hF T x j hj) v1 v2 l g P) ⟨inv.len, fun _ _ => rfl⟩).2
        have hxh := keyAt_home hv hx
        rw [inv.len] at hxh
        refine ⟨?_, ?_⟩
        · rw [List.pairwise_append]
          refine ⟨o1, by simp, ?_⟩
          intro t ht y hy
          simp only [List.mem_singleton] at hy
          subst hy
          rcases o2 t ht with h' | ⟨j, hj, h'⟩
          · exact .inl (by omega)
          · have hth := keyAt_home hv h'
            rw [inv.len] at hth
            exact .inr ⟨by omega, keyAt_lt hv h' hx hj⟩
        · intro t ht
          rcases List.mem_append.1 ht with ht | ht
          · rcases o2 t ht with h' | ⟨j, hj, h'⟩
            · exact .inl h'
            · exact .inr ⟨j, by omega, by rw [q2 j (by omega)]; exact h'⟩
          · simp only [List.mem_singleton] at ht
            subst ht
            exact .inr ⟨i, by omega, by rw [q2 i (Nat.le_refl _)]; exact hx⟩
      have hsz1 : SizeLe Ss1 (n0 + (insOf body (T ++ [x])).length) := by rw [hapl, ← Nat.add_assoc]; exact g3
      have hszb1 := sizeLe_sub hb1 hsz1
      have hrc1 := remain_cons hb1
      have hr6 := g6 b
      have hr0 := g6 0
      obtain ⟨it, e1, e2⟩ := nextValid_spec g2.small (h1.length + 1) b i hbh1 (by omega) (by omega)
      rw [e1]
      simp only [ok_bindE]
      rw [bsize_view g2 hb1] at e2
      have fin : ∀ R, R + 1 ≤ remain Ss b - i + (body (T ++ [x])).length → ∀ r, LoopEnd c N n0 R body E0 Ss1 (T ++ [x]) r →
          LoopEnd c N n0 (remain Ss b - i) body E0 Ss T r := by
        rintro R hR r ⟨h2, Ss2, T2, rs, w1, w2, w3, w4, w5, w6, w7, w8, w9⟩
        have ea : T ++ [x] ++ T2 = T ++ (x :: T2) := by simp
        have ei : insFrom body T (x :: T2) = body (T ++ [x]) ++ insFrom body (T ++ [x]) T2 := rfl
        rw [ea] at w1 w3 w6 w7
        refine ⟨h2, Ss2, x :: T2, rs1 ++ rs, w1, w2, w3, ?_, w5, w6, w7, ?_, ?_⟩
        · rw [ei, List.map_append]
          exact hsteps_append g4 w4
        · rw [ei]
          simp only [List.length_cons, List.length_append]
          omega
        · rw [ei, List.length_append]
          omega
      by_cases hnx : i + 1 < Ss1[b].length
      · rw [if_pos hnx] at e2
        subst e2
        exact fin _ (by omega) _ (ih1 h1 Ss1 b (i + 1) (T ++ [x]) hb1 hnx ⟨g2, hsz1, q0, qpr, qacc, hord⟩ (by omega))
      · rw [if_neg hnx] at e2
        refine fin _ ?_ _ (ih2 h1 Ss1 (b + 1) it (T ++ [x]) e2 hb1 ⟨g2, hsz1, q0, qpr, ?_, ?_⟩ (by omega))
        · omega
        · intro b' j e he
          rcases qacc b' j e he with (h' | ⟨h', h''⟩) | h'
          · by_cases hbb : b' = b + 1
            · exact .inl (.inr ⟨hbb, by omega⟩)
            · exact .inl (.inl (by omega))
          · subst h'
            obtain ⟨_, hj⟩ := keyAt_none_of_size he
            omega
          · exact .inr h'
        · intro hF
          obtain ⟨o1, o2⟩ := hord hF
          refine ⟨o1, ?_⟩
          intro t ht
          rcases o2 t ht with h' | ⟨j, hj, h'⟩
          · exact .inl (by omega)
          · have hth := keyAt_home g2 h'
            rw [q0] at hth
            exact .inl (by omega)
    refine ⟨hA, ?_⟩
    intro h Ss b it T hfi hb inv hf
    have hv := inv.view
    have hlen := hv.len
    rcases hfi with ⟨b', f1, f2, f3, f4, f5⟩ | ⟨f1, f2⟩
    · subst f5
      have hb' : b' < Ss.length := by omega
      have hz : ∀ j (h1 : b ≤ j) (h2 : j < b'), Ss[j].length = 0 := fun j h1 h2 => by
        rw [← bsize_view hv (by omega)]; exact f4 j h1 h2
      have hrs := remain_skip f1 (by omega) hz
      rw [bsize_view hv hb'] at f3
      rw [hrs] at hf ⊢
      refine hA h Ss b' 0 T hb' f3 ⟨hv, inv.size, inv.len, inv.pres, ?_, ?_⟩ hf
      · intro b2 j e he
        rcases inv.acc b2 j e he with h' | h'
        · obtain ⟨hb2, hj⟩ := keyAt_none_of_size he
          by_cases hlt : b2 < b'
          · have := hz b2 (by omega) hlt
            omega
          · by_cases heq : b2 = b'
            · exact .inl (.inr ⟨heq, by omega⟩)
            · exact .inl (.inl (by omega))
        · exact .inr h'
      · intro hF
        obtain ⟨o1, o2⟩ := inv.ord hF
        refine ⟨o1, fun t ht => ?_⟩
        rcases o2 t ht with h' | ⟨j, hj, _⟩
        · exact .inl (by omega)
        · omega
    · subst f2
      unfold insertLoopFrom iterValid
      rw [bucketValid_spec hv.small (by omega)]
      simp only [Nat.lt_irrefl, decide_false, Bool.false_eq_true, if_false, pure_eq_ok, ok_bindE]
      refine ⟨h, Ss, [], [], by simp, hv, by simpa using inv.size, .nil, inv.pres, ?_, ?_, by simp [insFrom], by simp [insFrom]⟩
      · intro b2 j e he
        rcases inv.acc b2 j e he with h' | h'
        · obtain ⟨hb2, hj⟩ := keyAt_none_of_size he
          have := f1 b2 (by omega) (by omega)
          rw [bsize_view hv hb2] at this
          omega
        · simpa using h'
      · intro hF
        simpa using (inv.ord hF).1

theorem insertLoop_spec {c : HCfg} (hc : HCfgOk c) {N n0 I : Nat} {body : List KV → List Ins} {E0 : List Byte → Prop}
    (hI : ∀ T, (insOf body T).length ≤ I) (hok : ∀ T, ∀ i ∈ body T, i.key.length = c.ksz ∧ i.val.length = c.vsz)
    (h32 : n0 + I < 2^32) (hk : (2 * (n0 + I) + 4) * c.ksz < 2^64) (hvz : (2 * (n0 + I) + 4) * c.vsz < 2^64)
    {h Ss} (hv : HView c h Ss) (hn : SizeLe Ss n0) (hN : Ss.length = N) (hE : Pres E0 Ss) {fuel : Nat}
    (hf : remain Ss 0 + I < fuel) :
    LoopEnd c N n0 (remain Ss 0) body E0 Ss [] (insertLoop c body h fuel) := by
  obtain ⟨_, i2⟩ := insertLoopFrom_spec hc hI hok h32 hk hvz fuel (E0 := E0) (N := N)
  have hz := zero_mkIter
  have h0 := hv.pos
  have hl := hv.small
  have hlen := hv.len
  have e0 : (insOf body []).length = 0 := by simp [insOf, insFrom]
  have hacc : ∀ b, (∀ j (h1 : 0 ≤ j) (h2 : j < b) (h3 : j < Ss.length), Ss[j].length = 0) → LoopInv c N n0 body E0 h Ss b 0 [] := by
    intro b hb
    refine ⟨hv, by rw [e0]; exact hn, hN, hE, ?_, fun _ => by simp⟩
    intro b' j e he
    obtain ⟨hb', hj⟩ := keyAt_none_of_size he
    by_cases hlt : b' < b
    · have := hb b' (by omega) hlt hb'
      omega
    · by_cases heq : b' = b
      · exact .inl (.inr ⟨heq, by omega⟩)
      · exact .inl (.inl (by omega))
  unfold insertLoop iterValid
  rw [hz, bucketValid_spec (by omega) (by omega), if_pos (by simpa using h0), indexValid_spec h0 (by omega) (by omega)]
  simp only [ok_bindE]
  by_cases hb : 0 < bsize h 0
  · rw [if_pos (by simpa using hb)]
    simp only [pure_eq_ok, ok_bindE]
    exact i2 h Ss 0 _ [] (.inl ⟨0, by omega, h0, hb, fun j _ h => by omega, hz⟩) (by omega)
      (hacc 0 (fun j _ h => by omega)) (by omega)
  · rw [if_neg (by simpa using hb)]
    obtain ⟨it, e1, e2⟩ := nextValid_spec hl (h.length + 1) 0 0 h0 (by omega) (by omega)
    rw [e1]
    simp only [ok_bindE]
    rw [if_neg (by omega)] at e2
    have hzz : ∀ j (h1 : 0 ≤ j) (h2 : j < 1), Ss[j].length = 0 := fun j h1 h2 => by
      have : j = 0 := by omega
      subst this
      rw [← bsize_view hv (by omega)]; omega
    rw [remain_skip (by omega) (by omega) hzz] at hf ⊢
    exact i2 h Ss 1 it [] e2 (by omega) (hacc 1 (fun j h1 h2 _ => hzz j h1 h2)) (by omega)

/-! ### Histories -/

theorem hrun_view {c : HCfg} (hc : HCfgOk c) {n : Nat} (h0 : 0 < n) (hn : n < 2^32) {ops : List Op}
    (h32 : ops.length < 2^32) (hk : (2 * ops.length + 4) * c.ksz < 2^64) (hv : (2 * ops.length + 4) * c.vsz < 2^64)
    (hop : ∀ op ∈ ops, OpOk c.toCfg op) :
    ∃ h rs Ss, hrun c (hinit n) ops = .ok (h, rs) ∧ HSteps c.cmp empty ops (hlook c Ss) rs ∧ HView c h Ss ∧
      SizeLe Ss ops.length ∧ Ss.length = n := by
  obtain ⟨h, rs, Ss, r1, r2, r3, r4, r5⟩ := hrun_spec hc ops (hinit n) (List.replicate n []) 0 (hinit_view hc h0 hn)
    (by intro S hS; rw [List.eq_of_mem_replicate hS]; simp) (by simpa using h32) (by simpa using hk)
    (by simpa using hv) hop
  simp only [Nat.zero_add] at r4
  have he : hlook c (List.replicate n []) = empty := by
    funext k
    simp [hlook, lookup, empty, List.getD_eq_getElem?_getD]
    rw [List.getElem?_replicate]
    split <;> simp
  rw [he] at r2
  refine ⟨h, rs, Ss, r1, r2, r3, r4, ?_⟩
  have := r3.len
  have hl : (hinit n).length = n := by simp [hinit]
  omega

theorem keyAt_entries {Ss : List (List KV)} {e : List Byte} :
    (∃ b j, keyAt Ss b j = some e) ↔ e ∈ (kvs (entriesFrom 0 Ss)).map Prod.fst := by
  rw [entriesFrom_kvs]
  constructor
  · rintro ⟨b, j, h⟩
    obtain ⟨hb, hj, rfl⟩ := keyAt_some h
    exact List.mem_map.2 ⟨_, List.mem_flatten.2 ⟨_, List.getElem_mem hb, List.getElem_mem hj⟩, rfl⟩
  · intro h
    obtain ⟨x, hx, rfl⟩ := List.mem_map.1 h
    obtain ⟨S, hS, hx⟩ := List.mem_flatten.1 hx
    obtain ⟨b, hb, rfl⟩ := List.getElem_of_mem hS
    obtain ⟨j, hj, rfl⟩ := List.getElem_of_mem hx
    exact ⟨b, j, keyAt_get hb hj⟩

theorem remain_entries {Ss : List (List KV)} : remain Ss 0 = (entriesFrom 0 Ss).length := by
  rw [entriesFrom_length]
  simp [remain]

theorem lookup_entries {c : HCfg} (hc : HCfgOk c) {h Ss} (hv : HView c h Ss) :
    lookup c.cmp (kvs (entriesFrom 0 Ss)) = hlook c Ss := by
  funext k
  rw [entriesFrom_kvs]
  exact lookup_flatten hc hv k

/-- What is known of a loop over a map reached by a history. -/
theorem insert_loop_helper (c : HCfg) (hc : HCfgOk c) (n : Nat) (h0 : 0 < n) (hn : n < 2^32) (ops : List Op) (I : Nat)
    (h32 : ops.length + I < 2^32) (hk : (2 * (ops.length + I) + 4) * c.ksz < 2^64)
    (hv : (2 * (ops.length + I) + 4) * c.vsz < 2^64) (hop : ∀ op ∈ ops, OpOk c.toCfg op) :
    ∃ h rs E, hrun c (hinit n) ops = .ok (h, rs) ∧ (∀ fuel, E.length < fuel → seen c h fuel = .ok E) ∧
      HSteps c.cmp empty ops (lookup c.cmp (kvs E)) rs ∧
      ∀ body, (∀ T, (insOf body T).length ≤ I) → (∀ T, ∀ i ∈ body T, OpOk c.toCfg (insOp i)) →
        ∀ fuel, E.length + I < fuel → ∃ h' T E' rs', insertLoop c body h fuel = .ok (h', T) ∧
          (∀ fuel, E.length + I < fuel → seen c h' fuel = .ok E') ∧
          HSteps c.cmp (lookup c.cmp (kvs E)) ((insOf body T).map insOp) (lookup c.cmp (kvs E')) rs' ∧
          (∀ k ∈ (kvs E).map Prod.fst, k ∈ (kvs E').map Prod.fst ∧ k ∈ T.map Prod.fst) ∧
          (∀ k ∈ (kvs E').map Prod.fst, k ∈ T.map Prod.fst ∨ Behind c n body T k) ∧
          (Fwd c n body → T.Pairwise fun x y => Before c n x.1 y.1) ∧
          T.length ≤ E.length + (insOf body T).length := by
  obtain ⟨h, rs, Ss, r1, r2, r3, r4, r5⟩ := hrun_view hc h0 hn (ops := ops) (by omega) (mul_lt_of hk (by omega))
    (mul_lt_of hv (by omega)) hop
  refine ⟨h, rs, entriesFrom 0 Ss, r1, fun fuel hf => seen_spec r3 r4 (by omega) (mul_lt_of hk (by omega))
    (mul_lt_of hv (by omega)) hf, by rw [lookup_entries hc r3]; exact r2, ?_⟩
  intro body hI hok fuel hf
  rw [← remain_entries] at hf ⊢
  have hpr : Pres (fun k => k ∈ (kvs (entriesFrom 0 Ss)).map Prod.fst) Ss := fun k hk => keyAt_entries.2 hk
  obtain ⟨h', Ss', T, rs', w1, w2, w3, w4, w5, w6, w7, w8, w9⟩ :=
    insertLoop_spec hc hI (fun T i hi => hok T i hi) h32 hk hv r3 r4 r5 hpr hf
  simp only [List.nil_append] at w1 w3 w6 w7
  have hIT := hI T
  have w8 : T.length ≤ remain Ss 0 + (insOf body T).length := w8
  have w9 : remain Ss' 0 ≤ remain Ss 0 + (insOf body T).length := w9
  refine ⟨h', T, entriesFrom 0 Ss', rs', w1, fun fuel hf => seen_spec w2 w3 (by omega) (mul_lt_of hk (by omega))
    (mul_lt_of hv (by omega)) (by rw [← remain_entries]; omega), ?_, ?_, ?_, w7, w8⟩
  · rw [lookup_entries hc r3, lookup_entries hc w2]
    exact w4
  · intro k hk
    obtain ⟨b, j, hj⟩ := w5 k hk
    refine ⟨keyAt_entries.1 ⟨b, j, hj⟩, ?_⟩
    rcases w6 b j k hj with h | ⟨_, h⟩
    · exact h
    · exact absurd hk h
  · intro k hk
    obtain ⟨b, j, hj⟩ := keyAt_entries.2 hk
    rcases w6 b j k hj with h | ⟨h, _⟩
    · exact .inl h
    · exact .inr h

/-- A new smaller key in the bucket of the present entry makes the loop come to that entry again. -/
theorem insert_again_helper {c : HCfg} (hc : HCfgOk c) {h Ss} (hv : HView c h Ss) {n : Nat} (hn : SizeLe Ss n)
    (hn32 : n + 1 < 2^32) (hk : (2 * n + 4) * c.ksz < 2^64) (hvz : (2 * n + 4) * c.vsz < 2^64)
    {b i : Nat} {x : List Byte} (hx : keyAt Ss b i = some x) (a1 a2) (k v : List Byte) (hkl : k.length = c.ksz)
    (hvl : v.length = c.vsz) (hh : home c Ss.length k = b) (hlt : c.cmp k x < 0) (hnone : hlook c Ss k = none) :
    ∃ h' it it', hinsert c (some a1) (some a2) h k v = .ok (h', it) ∧
      nextValid h' (h'.length + 1) (mkIter b i) = .ok it' ∧ iterValid h' it' = .ok true ∧ hgetkey c h' it' = .ok x := by
  obtain ⟨h', it, Ss', r1, r2, r3, r4, r5, r6, r7⟩ := hinsert_grow hc hv hn hn32 hk hvz (some a1) (some a2) k v hkl hvl
  have hlk : hlook c Ss' = upd c.cmp (hlook c Ss) k v := by
    generalize hr : HRes.iter (isNone it) = r at r4
    generalize hM : hlook c Ss' = M at r4
    cases r4 with
    | insert => rfl
    | insertFail h1 h2 => rcases h2 with h2 | h2 <;> cases h2
  have hx1 : keyAt Ss' b (i + 1) = some x := by
    rcases r7 with hg | ⟨p, _, hg⟩
    · exfalso
      have h1 : hlook c Ss' k = some v := by rw [hlk]; unfold upd; rw [if_pos (hc.cmp.refl k)]
      rw [← lookup_flatten hc r2] at h1
      unfold lookup at h1
      obtain ⟨e, he, _⟩ := Option.map_eq_some_iff.1 h1
      have hce : c.cmp k e.1 = 0 := by simpa using List.find?_some he
      obtain ⟨S, hS, heS⟩ := List.mem_flatten.1 (List.mem_of_find?_eq_some he)
      obtain ⟨b', hb', rfl⟩ := List.getElem_of_mem hS
      obtain ⟨j, hj, rfl⟩ := List.getElem_of_mem heS
      have h2 := keyAt_get hb' hj
      rw [hg] at h2
      obtain ⟨hb2, hj2, e2⟩ := keyAt_some h2
      have h3 := hnone
      rw [← lookup_flatten hc hv] at h3
      unfold lookup at h3
      rw [Option.map_eq_none_iff, List.find?_eq_none] at h3
      have := h3 _ (List.mem_flatten.2 ⟨_, List.getElem_mem hb2, List.getElem_mem hj2⟩)
      rw [e2] at this
      simp [hce] at this
    · by_cases hp : i < p
      · exfalso
        have h1 : keyAt Ss' b i = some x := by rw [hg, if_pos hh.symm, if_pos hp]; exact hx
        have h2 : keyAt Ss' b p = some k := by rw [hg, if_pos hh.symm, if_neg (by omega), if_pos rfl]
        have h3 := keyAt_lt r2 h1 h2 hp
        have := (hc.cmp.flip x k).1 h3
        omega
      · rw [hg, if_pos hh.symm, if_neg (by omega), if_neg (by omega)]; exact hx
  obtain ⟨hb', hi', e⟩ := keyAt_some hx1
  have hbh : b < h'.length := by rw [r2.len]; exact hb'
  have hl := r2.small
  have hsz := sizeLe_sub hb' r3
  obtain ⟨it', e1, e2⟩ := nextValid_spec r2.small (h'.length + 1) b i hbh (by omega) (by omega)
  rw [bsize_view r2 hb', if_pos hi'] at e2
  subst e2
  obtain ⟨_, k1, _⟩ := entry_spec r2 r3 (by omega) (mul_lt_of hk (by omega)) (mul_lt_of hvz (by omega)) hb' hi'
  refine ⟨h', it, _, r1, e1, ?_, by rw [k1, e]⟩
  unfold iterValid
  rw [bucketValid_spec (by omega) (by omega), if_pos (by simpa using hbh), indexValid_spec hbh (by omega) (by omega),
    bsize_view r2 hb']
  simp [hi']

end Ulz.Bmap

import Verif.Proofs.Bmap
set_option linter.unusedSimpArgs false
set_option linter.unusedVariables false
namespace Ulz.Bmap
open Spec
open Ulz.Sblist (mul_lt_of)
open Ulz.Sblist.Spec (TotalPreorder Sorted)

/-! ### Iterator arithmetic -/

theorem mkIter_toNat {b i : Nat} (hb : b < 2^32) (hi : i < 2^32) : (mkIter b i).toNat = b * 2^32 + i := by
  unfold mkIter
  rw [BitVec.toNat_ofNat]
  exact Nat.mod_eq_of_lt (by omega)

theorem iterBucket_mk {b i : Nat} (hb : b < 2^32) (hi : i < 2^32) : iterBucket (mkIter b i) = b := by
  unfold iterBucket
  rw [BitVec.toNat_ushiftRight, mkIter_toNat hb hi, Nat.shiftRight_eq_div_pow]
  omega

theorem iterIndex_mk {b i : Nat} (hb : b < 2^32) (hi : i < 2^32) : iterIndex (mkIter b i) = i := by
  unfold iterIndex
  rw [BitVec.toNat_and, mkIter_toNat hb hi]
  rw [show (0xffffffff#64).toNat = 2^32 - 1 from rfl, Nat.and_two_pow_sub_one_eq_mod]
  omega

theorem makeBucket_eq {b : Nat} (hb : b < 2^32) : makeBucket (BitVec.ofNat 64 b) = mkIter b 0 := by
  apply BitVec.eq_of_toNat_eq
  rw [mkIter_toNat hb (by omega)]
  unfold makeBucket
  rw [BitVec.toNat_shiftLeft, BitVec.toNat_ofNat, Nat.shiftLeft_eq]
  omega

theorem makeBucket_or {b i : Nat} (hb : b < 2^32) (hi : i < 2^32) :
    makeBucket (BitVec.ofNat 64 b) ||| BitVec.ofNat 64 i = mkIter b i := by
  rw [makeBucket_eq hb]
  apply BitVec.eq_of_toNat_eq
  rw [BitVec.toNat_or, mkIter_toNat hb (by omega), mkIter_toNat hb hi, BitVec.toNat_ofNat,
    Nat.mod_eq_of_lt (by omega : i < 2^64), Nat.add_zero, ← Nat.shiftLeft_eq, Nat.shiftLeft_add_eq_or_of_lt hi]

theorem or_neg_one (x : BitVec 64) : x ||| -1#64 = -1#64 := by
  have : (-1#64) = BitVec.allOnes 64 := by decide
  rw [this, BitVec.or_allOnes]

theorem zero_mkIter : (0 : BitVec 64) = mkIter 0 0 := by decide

theorem isNone_neg : isNone (-1#64) = true := by decide

theorem mkIter_ne {b i : Nat} (hb : b < 2^32 - 1) (hi : i < 2^32) : isNone (mkIter b i) = false := by
  unfold isNone
  rw [beq_eq_false_iff_ne]
  intro h
  have := congrArg BitVec.toNat h
  rw [mkIter_toNat (by omega) hi] at this
  rw [show (-1#64).toNat = 2^64 - 1 from by decide] at this
  omega

theorem mkIter_succ {b i : Nat} (hb : b < 2^32) (hi : i + 1 < 2^32) : mkIter b i + 1 = mkIter b (i + 1) := by
  apply BitVec.eq_of_toNat_eq
  rw [BitVec.toNat_add, mkIter_toNat hb (by omega), mkIter_toNat hb hi]
  rw [show (1 : BitVec 64).toNat = 1 from rfl]
  omega

theorem makeBucket_succ {b : Nat} (hb : b + 1 < 2^32) : makeBucket (BitVec.ofNat 64 b + 1) = mkIter (b + 1) 0 := by
  rw [← makeBucket_eq hb]
  congr 1
  apply BitVec.eq_of_toNat_eq
  rw [BitVec.toNat_add, BitVec.toNat_ofNat, BitVec.toNat_ofNat]
  rw [show (1 : BitVec 64).toNat = 1 from rfl]
  omega

theorem mkIter_inj {b i b' i' : Nat} (hb : b < 2^32) (hi : i < 2^32) (hb' : b' < 2^32) (hi' : i' < 2^32)
    (h : mkIter b i = mkIter b' i') : b = b' ∧ i = i' := by
  have := congrArg BitVec.toNat h
  rw [mkIter_toNat hb hi, mkIter_toNat hb' hi'] at this
  omega


attribute [local irreducible] mkIter isNone iterBucket iterIndex

/-! ### The map -/

/-- Entries of every bucket. -/
structure HView (c : HCfg) (h : List BM) (Ss : List (List KV)) : Prop where
  len : h.length = Ss.length
  pos : 0 < h.length
  small : h.length < 2^32
  view : ∀ i (hi : i < h.length), View c.toCfg h[i] (Ss[i]'(by omega))
  home : ∀ i (hi : i < Ss.length), ∀ e ∈ Ss[i], (c.hash e.1).toNat % h.length = i

def bidx (c : HCfg) (Ss : List (List KV)) (k : List Byte) : Nat := (c.hash k).toNat % Ss.length

def hlook (c : HCfg) (Ss : List (List KV)) : Map :=
  fun k => lookup c.cmp (Ss.getD (bidx c Ss k) []) k

/-- Number of entries of the largest bucket is at most `n`. -/
def SizeLe (Ss : List (List KV)) (n : Nat) : Prop := ∀ S ∈ Ss, S.length ≤ n

theorem bidx_lt {c : HCfg} {h Ss} (hv : HView c h Ss) (k) : bidx c Ss k < Ss.length := by
  have := hv.len; have := hv.pos
  exact Nat.mod_lt _ (by omega)

theorem getD_lt {Ss : List (List KV)} {b : Nat} (hb : b < Ss.length) : Ss.getD b [] = Ss[b] := by
  simp [List.getD_eq_getElem?_getD, hb]

theorem buckindex_spec {c : HCfg} {h Ss} (hv : HView c h Ss) (k) :
    buckindex c h k = .ok (BitVec.ofNat 64 (bidx c Ss k)) := by
  unfold buckindex bidx
  rw [if_neg (by have := hv.pos; omega), hv.len]
  rfl

theorem bucket_spec {h : List BM} {b : Nat} (hb : b < h.length) : bucket h b = .ok h[b] := by
  unfold bucket
  rw [List.getElem?_eq_getElem hb]
  rfl

theorem hfind_spec {c : HCfg} (hc : HCfgOk c) {h Ss} (hv : HView c h Ss) {n : Nat} (hn : SizeLe Ss n)
    (hn32 : n < 2^32) (hb : n * c.ksz < 2^64) (k : List Byte) :
    let b := bidx c Ss k
    ∃ hb : b < Ss.length,
    (∃ i, ∃ hi : i < Ss[b].length, hfind c h k = .ok (mkIter b i) ∧ c.cmp k Ss[b][i].1 = 0 ∧
      hlook c Ss k = some Ss[b][i].2) ∨
    (hfind c h k = .ok (-1#64) ∧ (∀ e ∈ Ss[b], c.cmp k e.1 ≠ 0) ∧ hlook c Ss k = none) := by
  intro b
  have hbl : b < Ss.length := bidx_lt hv k
  refine ⟨hbl, ?_⟩
  have hbh : b < h.length := by rw [hv.len]; exact hbl
  have hb32 : b < 2^32 := by have := hv.small; omega
  have hV := hv.view b hbh
  have hcnt : h[b].keys.count = Ss[b].length := by rw [hV.keys.count]; simp
  have hle := hn Ss[b] (List.getElem_mem _)
  have hg : hlook c Ss k = lookup c.cmp Ss[b] k := by unfold hlook; rw [getD_lt hbl]
  unfold hfind
  rw [buckindex_spec hv]
  simp only [ok_bindE]
  rw [show bidx c Ss k = b from rfl, makeBucket_eq hb32, iterBucket_mk hb32 (by omega), bucket_spec hbh, hg]
  simp only [ok_bindE]
  rcases find_spec hc.toCfgOk hV (mul_lt_of hb (by omega)) k with ⟨i, hi, f1, f2, f3⟩ | ⟨f1, f2, f3⟩
  · left
    rw [f1]
    refine ⟨i, hi, ?_, f2, f3⟩
    simp only [ok_bindE, pure_eq_ok, idx64]
    rw [← makeBucket_eq hb32, makeBucket_or hb32 (by omega)]
  · right
    rw [f1]
    refine ⟨?_, f2, f3⟩
    simp only [ok_bindE, pure_eq_ok, idx64, or_neg_one]

theorem HView.set {c : HCfg} {h Ss} (hv : HView c h Ss) {b : Nat} (hb : b < Ss.length) {bm S'}
    (hV : View c.toCfg bm S') (hh : ∀ e ∈ S', (c.hash e.1).toNat % h.length = b) :
    HView c (h.set b bm) (Ss.set b S') := by
  refine ⟨by simp [hv.len], by simpa using hv.pos, by simpa using hv.small, ?_, ?_⟩
  · intro i hi
    simp only [List.length_set] at hi
    simp only [List.getElem_set]
    split
    · exact hV
    · exact hv.view i hi
  · intro i hi e he
    simp only [List.length_set] at hi ⊢
    simp only [List.getElem_set] at he
    split at he
    · rename_i hbi; subst hbi; exact hh e he
    · exact hv.home i hi e he

theorem hlook_set {c : HCfg} {Ss : List (List KV)} {k : List Byte} {S'} (hb : bidx c Ss k < Ss.length) (k' : List Byte) :
    hlook c (Ss.set (bidx c Ss k) S') k' =
      if bidx c Ss k' = bidx c Ss k then lookup c.cmp S' k' else hlook c Ss k' := by
  unfold hlook
  have e : bidx c (Ss.set (bidx c Ss k) S') k' = bidx c Ss k' := by unfold bidx; simp
  rw [e]
  by_cases h : bidx c Ss k' = bidx c Ss k
  · rw [if_pos h, h]
    simp [List.getD_eq_getElem?_getD, hb]
  · rw [if_neg h]
    simp [List.getD_eq_getElem?_getD, Ne.symm h]

theorem hlook_upd {c : HCfg} (hc : HCfgOk c) {Ss : List (List KV)} {k v : List Byte} {S'}
    (hb : bidx c Ss k < Ss.length) (he : lookup c.cmp S' = upd c.cmp (lookup c.cmp Ss[bidx c Ss k]) k v) :
    hlook c (Ss.set (bidx c Ss k) S') = upd c.cmp (hlook c Ss) k v := by
  funext k'
  rw [hlook_set hb, he]
  unfold upd
  by_cases h0 : c.cmp k' k = 0
  · have : bidx c Ss k' = bidx c Ss k := by unfold bidx; rw [hc.hash k' k h0]
    rw [if_pos this, if_pos h0, if_pos h0]
  · rw [if_neg h0, if_neg h0]
    split
    · rename_i h; unfold hlook; rw [h, getD_lt hb]
    · rfl

theorem hlook_rem {c : HCfg} (hc : HCfgOk c) {Ss : List (List KV)} {k : List Byte} {S'}
    (hb : bidx c Ss k < Ss.length) (he : lookup c.cmp S' = rem c.cmp (lookup c.cmp Ss[bidx c Ss k]) k) :
    hlook c (Ss.set (bidx c Ss k) S') = rem c.cmp (hlook c Ss) k := by
  funext k'
  rw [hlook_set hb, he]
  unfold rem
  by_cases h0 : c.cmp k' k = 0
  · have : bidx c Ss k' = bidx c Ss k := by unfold bidx; rw [hc.hash k' k h0]
    rw [if_pos this, if_pos h0, if_pos h0]
  · rw [if_neg h0, if_neg h0]
    split
    · rename_i h; unfold hlook; rw [h, getD_lt hb]
    · rfl

theorem sizeLe_set {Ss : List (List KV)} {n b : Nat} {S'} (h : SizeLe Ss n) (h' : S'.length ≤ n + 1) : SizeLe (Ss.set b S') (n + 1) := by
  intro S hS
  rcases List.mem_or_eq_of_mem_set hS with hS | hS
  · have := h S hS; omega
  · subst hS; exact h'

theorem set_self' {α} {l : List α} {i : Nat} (h : i < l.length) : l.set i l[i] = l := by
  apply List.ext_getElem (by simp)
  intro j h1 h2
  simp only [List.getElem_set]
  split
  · rename_i e; subst e; rfl
  · rfl

/-- Outcome of an insertion, including what the returned iterator designates. -/
theorem hinsert_spec {c : HCfg} (hc : HCfgOk c) {h Ss} (hv : HView c h Ss) {n : Nat} (hn : SizeLe Ss n)
    (hn32 : n + 1 < 2^32) (hk : (2 * n + 4) * c.ksz < 2^64) (hvz : (2 * n + 4) * c.vsz < 2^64) (hm : h.length < 2^32)
    (a1 a2 : Alloc) (k v : List Byte) (hkl : k.length = c.ksz) (hvl : v.length = c.vsz) :
    (∃ h' Ss' b i, hinsert c a1 a2 h k v = .ok (h', mkIter b i) ∧ isNone (mkIter b i) = false ∧ HView c h' Ss' ∧ SizeLe Ss' (n + 1) ∧
      h'.length = h.length ∧ hlook c Ss' = upd c.cmp (hlook c Ss) k v ∧
      ∃ (hb : b < Ss'.length) (hi : i < Ss'[b].length), c.cmp k Ss'[b][i].1 = 0 ∧ Ss'[b][i].2 = v) ∨
    (hlook c Ss k = none ∧ (a1 = none ∨ a2 = none) ∧ ∃ h', hinsert c a1 a2 h k v = .ok (h', -1#64) ∧ HView c h' Ss ∧
      h'.length = h.length) := by
  obtain ⟨hbl, hf⟩ := hfind_spec hc hv hn (by omega) (mul_lt_of hk (by omega)) k
  generalize hbdef : bidx c Ss k = b at hbl hf
  have hbh : b < h.length := by rw [hv.len]; exact hbl
  have hb32 : b < 2^32 := by omega
  have hV := hv.view b hbh
  have hcnt : h[b].keys.count = Ss[b].length := by rw [hV.keys.count]; simp
  have hcntv : h[b].values.count = Ss[b].length := by rw [hV.values.count]; simp
  have hle := hn Ss[b] (List.getElem_mem _)
  have hhome : (c.hash k).toNat % h.length = b := by rw [← hbdef, hv.len]; rfl
  unfold hinsert
  rcases hf with ⟨i, hi, f1, f2, f3⟩ | ⟨f1, f2, f3⟩
  · left
    rw [f1]
    have hne : isNone (mkIter b i) = false := mkIter_ne (by omega) (by omega)
    simp only [ok_bindE, hne, Bool.false_eq_true, if_false]
    obtain ⟨vs, s1, s2, s3⟩ := set_view hc.toCfgOk hV (mul_lt_of hvz (by omega)) hi v hvl
    unfold hsetvalue
    rw [iterBucket_mk hb32 (by omega), bucket_spec hbh, iterIndex_mk hb32 (by omega)]
    simp only [ok_bindE, s1, pure_eq_ok]
    refine ⟨h.set b { h[b] with values := vs }, Ss.set b (Ss[b].set i (Ss[b][i].1, v)), b, i, rfl, hne, hv.set hbl s2 ?_, ?_, by simp, ?_, by simpa using hbl, by simp; omega, ?_, ?_⟩
    · intro e he
      rcases List.mem_or_eq_of_mem_set he with he | he
      · exact hv.home b hbl e he
      · subst he; exact hv.home b hbl Ss[b][i] (List.getElem_mem _)
    · exact sizeLe_set hn (by simp; omega)
    · have hbl' : bidx c Ss k < Ss.length := by rw [hbdef]; exact hbl
      have := hlook_upd hc (Ss := Ss) (k := k) (v := v) (S' := Ss[b].set i (Ss[b][i].1, v)) hbl' (by
        rw [s3]; simp only [hbdef]; rw [upd_congr hc.cmp f2])
      rwa [hbdef] at this
    · simpa using f2
    · simp
  · rw [f1]
    simp only [ok_bindE, isNone_neg, if_true]
    unfold hinsert_nocheck
    rw [buckindex_spec hv, hbdef]
    simp only [ok_bindE]
    rw [makeBucket_eq hb32, iterBucket_mk hb32 (by omega), bucket_spec hbh]
    simp only [ok_bindE]
    rcases nocheck_spec hc.toCfgOk hV (mul_lt_of hk (by omega)) (mul_lt_of hvz (by omega)) a1 a2 k v hkl hvl f2 with
      ⟨b', p, _, _, r1, r2, r3, r4⟩ | ⟨r1, _, r2⟩ | ⟨b', p, _, r0, _, r1, r2, r3⟩
    · left
      rw [r1]
      simp only [ok_bindE, pure_eq_ok, idx64]
      rw [← makeBucket_eq hb32, makeBucket_or hb32 (by omega)]
      refine ⟨h.set b b', Ss.set b (Ss[b].take p ++ (k, v) :: Ss[b].drop p), b, p, rfl, mkIter_ne (by omega) (by omega), hv.set hbl r3 ?_, ?_, by simp, ?_,
        by simpa using hbl, by simp; omega, ?_, ?_⟩
      · intro e he
        rcases List.mem_append.1 he with he | he
        · exact hv.home b hbl e (List.mem_of_mem_take he)
        · rcases List.mem_cons.1 he with rfl | he
          · exact hhome
          · exact hv.home b hbl e (List.mem_of_mem_drop he)
      · exact sizeLe_set hn (by simp; omega)
      · have hbl' : bidx c Ss k < Ss.length := by rw [hbdef]; exact hbl
        have := hlook_upd hc (Ss := Ss) (k := k) (v := v) (S' := Ss[b].take p ++ (k, v) :: Ss[b].drop p) hbl' (by
          rw [r4]; simp only [hbdef])
        rwa [hbdef] at this
      · simp only [List.getElem_set_self]
        rw [List.getElem_append_right (by simp; omega)]; simp [Nat.min_eq_left r2, hc.cmp.refl]
      · simp only [List.getElem_set_self]
        rw [List.getElem_append_right (by simp; omega)]; simp [Nat.min_eq_left r2]
    · right
      rw [r2]
      simp only [ok_bindE, pure_eq_ok, idx64, or_neg_one]
      refine ⟨f3, .inl r1, _, rfl, ?_, by simp⟩
      rw [set_self' hbh]; exact hv
    · right
      rw [r2]
      simp only [ok_bindE, pure_eq_ok, idx64, or_neg_one]
      refine ⟨f3, .inr r0, _, rfl, ?_, by simp⟩
      have := hv.set hbl r3 (fun e he => hv.home b hbl e he)
      rwa [set_self' hbl] at this

theorem hget_spec {c : HCfg} (hc : HCfgOk c) {h Ss} (hv : HView c h Ss) {n : Nat} (hn : SizeLe Ss n)
    (hn32 : n < 2^32) (hk : n * c.ksz < 2^64) (hvz : n * c.vsz < 2^64) (k : List Byte) :
    hget c h k = .ok (hlook c Ss k) := by
  obtain ⟨hbl, hf⟩ := hfind_spec hc hv hn hn32 hk k
  generalize hbdef : bidx c Ss k = b at hbl hf
  have hbh : b < h.length := by rw [hv.len]; exact hbl
  have hb32 : b < 2^32 := by have := hv.small; omega
  have hV := hv.view b hbh
  have hcntv : h[b].values.count = Ss[b].length := by rw [hV.values.count]; simp
  have hle := hn Ss[b] (List.getElem_mem _)
  unfold hget
  rcases hf with ⟨i, hi, f1, f2, f3⟩ | ⟨f1, f2, f3⟩
  · rw [f1]
    simp only [ok_bindE, mkIter_ne (b := b) (i := i) (by have := hv.small; omega) (by omega), Bool.false_eq_true, if_false]
    unfold hgetval getval
    rw [iterBucket_mk hb32 (by omega), bucket_spec hbh, iterIndex_mk hb32 (by omega)]
    simp only [ok_bindE]
    rw [Tglist.get_spec hV.values (mul_lt_of hvz (by omega)) (i := i) (by simpa using hi), f3]
    simp [pure_eq_ok]
  · rw [f1, f3]
    simp only [ok_bindE, isNone_neg, if_true, pure_eq_ok]

theorem hstep_spec {c : HCfg} (hc : HCfgOk c) {h Ss} (hv : HView c h Ss) {n : Nat} (hn : SizeLe Ss n)
    (hn32 : n + 1 < 2^32) (hk : (2 * n + 4) * c.ksz < 2^64) (hvz : (2 * n + 4) * c.vsz < 2^64)
    (op : Op) (hop : OpOk c.toCfg op) :
    ∃ h' r Ss', hstep c h op = .ok (h', r) ∧ HStep c.cmp (hlook c Ss) op (hlook c Ss') r ∧ HView c h' Ss' ∧
      SizeLe Ss' (n + 1) ∧ h'.length = h.length := by
  have hk0 : n * c.ksz < 2^64 := mul_lt_of hk (by omega)
  have hv0 : n * c.vsz < 2^64 := mul_lt_of hvz (by omega)
  have hn' : SizeLe Ss (n + 1) := fun S hS => by have := hn S hS; omega
  have hm := hv.small
  cases op with
  | insert k v a1 a2 =>
    rcases hinsert_spec hc hv hn hn32 hk hvz hm a1 a2 k v hop.1 hop.2 with ⟨h', Ss', b, i, r1, r2, r3, r4, r5, r6, _⟩ | ⟨r1, r2, h', r3, r4, r5⟩
    · refine ⟨h', .iter false, Ss', ?_, by rw [r6]; exact .insert, r3, r4, r5⟩
      simp only [hstep, r1, ok_bindE, r2, pure_eq_ok]
    · refine ⟨h', .iter true, Ss, ?_, .insertFail r1 r2, r4, hn', r5⟩
      simp only [hstep, r3, ok_bindE, isNone_neg, pure_eq_ok]
  | get k =>
    exact ⟨h, _, Ss, by simp only [hstep, hget_spec hc hv hn (by omega) hk0 hv0]; rfl, .get, hv, hn', rfl⟩
  | contains k =>
    refine ⟨h, _, Ss, ?_, .contains, hv, hn', rfl⟩
    obtain ⟨hbl, hf⟩ := hfind_spec hc hv hn (by omega) hk0 k
    have hbh : bidx c Ss k < h.length := by rw [hv.len]; exact hbl
    rcases hf with ⟨i, hi, f1, f2, f3⟩ | ⟨f1, f2, f3⟩
    · have hle := hn Ss[bidx c Ss k] (List.getElem_mem _)
      have := mkIter_ne (b := bidx c Ss k) (i := i) (by omega) (by omega)
      simp only [hstep, f1, f3, ok_bindE, this, pure_eq_ok, Bool.not_false, Option.isSome]
    · simp only [hstep, f1, f3, ok_bindE, isNone_neg, pure_eq_ok, Bool.not_true, Option.isSome]
  | del k =>
    obtain ⟨hbl, hf⟩ := hfind_spec hc hv hn (by omega) hk0 k
    have hbh : bidx c Ss k < h.length := by rw [hv.len]; exact hbl
    have hb32 : bidx c Ss k < 2^32 := by omega
    have hle := hn Ss[bidx c Ss k] (List.getElem_mem _)
    have hV := hv.view _ hbh
    have hcnt : h[bidx c Ss k].keys.count = Ss[bidx c Ss k].length := by rw [hV.keys.count]; simp
    have hdel := HStep.del (cmp := c.cmp) (M := hlook c Ss) (k := k)
    rcases hf with ⟨i, hi, f1, f2, f3⟩ | ⟨f1, f2, f3⟩
    · obtain ⟨bm, d1, d2, d3⟩ := delete_view hc.toCfgOk hV (mul_lt_of hk0 (by omega)) (mul_lt_of hv0 (by omega)) hi
      refine ⟨h.set (bidx c Ss k) bm, .bool true, Ss.set (bidx c Ss k) (Ss[bidx c Ss k].eraseIdx i), ?_, ?_,
        hv.set hbl d2 ?_, sizeLe_set hn ?_, by simp⟩
      · simp only [hstep, f1, ok_bindE]
        simp only [mkIter_ne (b := bidx c Ss k) (i := i) (by omega) (by omega), Bool.false_eq_true, if_false]
        unfold hdelete
        rw [iterBucket_mk hb32 (by omega), bucket_spec hbh, iterIndex_mk hb32 (by omega)]
        simp only [ok_bindE, d1, pure_eq_ok]
      · rw [f3] at hdel
        rw [hlook_rem hc hbl (by rw [d3, rem_congr hc.cmp f2])]
        exact hdel
      · intro e he; exact hv.home _ hbl e (List.mem_of_mem_eraseIdx he)
      · rw [List.length_eraseIdx]; split <;> omega
    · refine ⟨h, .bool false, Ss, by simp only [hstep, f1, ok_bindE, isNone_neg, if_true, pure_eq_ok], ?_, hv, hn', rfl⟩
      rw [f3] at hdel
      have e : rem c.cmp (hlook c Ss) k = hlook c Ss := by
        funext x
        unfold rem
        split
        · rename_i hx
          rw [← f3]
          unfold hlook
          have : bidx c Ss x = bidx c Ss k := by unfold bidx; rw [hc.hash x k hx]
          rw [this, lookup_congr hc.cmp hx]
        · rfl
      rw [e] at hdel
      exact hdel

theorem hrun_spec {c : HCfg} (hc : HCfgOk c) : ∀ (ops : List Op) (h : List BM) (Ss : List (List KV)) (n : Nat),
    HView c h Ss → SizeLe Ss n → n + ops.length < 2^32 →
    (2 * (n + ops.length) + 4) * c.ksz < 2^64 → (2 * (n + ops.length) + 4) * c.vsz < 2^64 →
    (∀ op ∈ ops, OpOk c.toCfg op) →
    ∃ h' rs Ss', hrun c h ops = .ok (h', rs) ∧ HSteps c.cmp (hlook c Ss) ops (hlook c Ss') rs ∧ HView c h' Ss' ∧
      SizeLe Ss' (n + ops.length) ∧ h'.length = h.length
  | [], h, Ss, n, hv, hn, _, _, _, _ => ⟨h, [], Ss, rfl, .nil, hv, by simpa using hn, rfl⟩
  | op :: ops, h, Ss, n, hv, hn, h32, hk, hvz, hop => by
    simp only [List.length_cons] at hk hvz h32
    obtain ⟨h1, r, Ss1, e1, e2, e3, e4, e5⟩ := hstep_spec hc hv hn (by omega) (mul_lt_of hk (by omega)) (mul_lt_of hvz (by omega)) op
      (hop op (by simp))
    obtain ⟨h2, rs, Ss2, r1, r2, r3, r4, r5⟩ := hrun_spec hc ops h1 Ss1 (n + 1) e3 e4 (by omega) (mul_lt_of hk (by omega))
      (mul_lt_of hvz (by omega)) (fun o ho => hop o (by simp [ho]))
    refine ⟨h2, r :: rs, Ss2, by simp only [hrun, e1, ok_bindE, r1]; rfl, .cons e2 r2, r3, ?_, by omega⟩
    intro S hS
    have := r4 S hS
    simp; omega

theorem hinit_view {c : HCfg} (hc : HCfgOk c) {n : Nat} (h0 : 0 < n) (h1 : n < 2^32) :
    HView c (hinit n) (List.replicate n []) := by
  refine ⟨by simp [hinit], by simpa [hinit] using h0, by simpa [hinit] using h1, ?_, ?_⟩
  · intro i hi
    simp only [hinit, List.getElem_replicate]
    exact init_view hc.toCfgOk
  · intro i hi e he
    simp at he

/-! ### Iteration -/

def bsize (h : List BM) (b : Nat) : Nat := (h[b]?.map (·.keys.count)).getD 0

theorem bsize_eq {h : List BM} {b : Nat} (hb : b < h.length) : bsize h b = h[b].keys.count := by
  simp [bsize, hb]

theorem indexValid_spec {h : List BM} {b i : Nat} (hb : b < h.length) (hb32 : b < 2^32) (hi : i < 2^32) :
    indexValid h (mkIter b i) = .ok (decide (i < bsize h b)) := by
  unfold indexValid
  rw [iterBucket_mk hb32 hi, bucket_spec hb, iterIndex_mk hb32 hi, bsize_eq hb]
  rfl

theorem bucketValid_spec {h : List BM} {b i : Nat} (hb32 : b < 2^32) (hi : i < 2^32) :
    bucketValid h (mkIter b i) = decide (b < h.length) := by
  unfold bucketValid
  rw [iterBucket_mk hb32 hi]

/-- `it` is the first entry in bucket `b` or later, or the end. -/
def First (h : List BM) (b : Nat) (it : Iter) : Prop :=
  (∃ b', b ≤ b' ∧ b' < h.length ∧ 0 < bsize h b' ∧ (∀ j, b ≤ j → j < b' → bsize h j = 0) ∧ it = mkIter b' 0) ∨
  ((∀ j, b ≤ j → j < h.length → bsize h j = 0) ∧ it = mkIter h.length 0)

theorem nextValid_spec {h : List BM} (hl : h.length < 2^32) : ∀ (fuel b i : Nat), b < h.length → i + 1 < 2^32 →
    h.length - b ≤ fuel → ∃ it, nextValid h fuel (mkIter b i) = .ok it ∧
      (if i + 1 < bsize h b then it = mkIter b (i + 1) else First h (b + 1) it)
  | 0, b, i, hb, _, hf => by omega
  | fuel + 1, b, i, hb, hi, hf => by
    have hb32 : b < 2^32 := by omega
    unfold nextValid nextStep
    rw [mkIter_succ hb32 hi, indexValid_spec hb hb32 hi]
    simp only [ok_bindE]
    by_cases hs : i + 1 < bsize h b
    · rw [if_pos (by simpa using hs)]
      simp only [pure_eq_ok, ok_bindE]
      rw [bucketValid_spec hb32 hi, if_pos (by simpa using hb), indexValid_spec hb hb32 hi]
      simp only [ok_bindE]
      rw [if_pos (by simpa using hs)]
      exact ⟨_, rfl, by rw [if_pos hs]⟩
    · rw [if_neg (by simpa using hs)]
      simp only [pure_eq_ok, ok_bindE]
      rw [iterBucket_mk hb32 (by omega), makeBucket_succ (by omega), bucketValid_spec (by omega) (by omega)]
      by_cases hb1 : b + 1 < h.length
      · rw [if_pos (by simpa using hb1), indexValid_spec hb1 (by omega) (by omega)]
        simp only [ok_bindE]
        by_cases hz : 0 < bsize h (b + 1)
        · rw [if_pos (by simpa using hz)]
          refine ⟨_, rfl, ?_⟩
          rw [if_neg hs]
          exact .inl ⟨b + 1, by omega, hb1, hz, fun j h1 h2 => by omega, rfl⟩
        · rw [if_neg (by simpa using hz)]
          obtain ⟨it, e1, e2⟩ := nextValid_spec hl fuel (b + 1) 0 hb1 (by omega) (by omega)
          refine ⟨it, e1, ?_⟩
          rw [if_neg hs]
          rw [if_neg (by omega)] at e2
          rcases e2 with ⟨b', f1, f2, f3, f4, f5⟩ | ⟨f1, f2⟩
          · refine .inl ⟨b', by omega, f2, f3, ?_, f5⟩
            intro j h1 h2
            by_cases hj : j = b + 1
            · subst hj; omega
            · exact f4 j (by omega) h2
          · refine .inr ⟨?_, f2⟩
            intro j h1 h2
            by_cases hj : j = b + 1
            · subst hj; omega
            · exact f1 j (by omega) h2
      · rw [if_neg (by simpa using hb1)]
        refine ⟨_, rfl, ?_⟩
        rw [if_neg hs]
        refine .inr ⟨fun j h1 h2 => by omega, ?_⟩
        congr 1; omega

/-- Iterators of the buckets from `b` on. -/
def fromBucket (h : List BM) (b : Nat) : List Iter :=
  (List.range' b (h.length - b)).flatMap fun j => (List.range (bsize h j)).map (mkIter j)

theorem fromBucket_cons {h : List BM} {b : Nat} (hb : b < h.length) :
    fromBucket h b = (List.range (bsize h b)).map (mkIter b) ++ fromBucket h (b + 1) := by
  unfold fromBucket
  rw [show h.length - b = (h.length - (b + 1)) + 1 by omega, List.range'_succ, List.flatMap_cons]

theorem fromBucket_skip {h : List BM} {b b' : Nat} (hle : b ≤ b') (hb : b' ≤ h.length)
    (hz : ∀ j, b ≤ j → j < b' → bsize h j = 0) : fromBucket h b = fromBucket h b' := by
  induction hle with
  | refl => rfl
  | step hn ih =>
    rw [ih (by omega) (fun j h1 h2 => hz j h1 (by omega)), fromBucket_cons (by omega), hz _ hn (by omega)]
    simp

theorem fromBucket_end {h : List BM} : fromBucket h h.length = [] := by simp [fromBucket]

def fromPos (h : List BM) (b i : Nat) : List Iter :=
  (List.range' i (bsize h b - i)).map (mkIter b) ++ fromBucket h (b + 1)

theorem fromBucket_pos {h : List BM} {b : Nat} (hb : b < h.length) : fromBucket h b = fromPos h b 0 := by
  rw [fromBucket_cons hb]
  simp [fromPos, List.range_eq_range']

theorem fromPos_cons {h : List BM} {b i : Nat} (hi : i < bsize h b) : fromPos h b i = mkIter b i :: fromPos h b (i + 1) := by
  unfold fromPos
  rw [show bsize h b - i = (bsize h b - (i + 1)) + 1 by omega, List.range'_succ]
  simp

theorem fromPos_end {h : List BM} {b i : Nat} (hi : bsize h b ≤ i) : fromPos h b i = fromBucket h (b + 1) := by
  unfold fromPos
  rw [show bsize h b - i = 0 by omega]
  simp

theorem foreachFrom_spec {h : List BM} (hl : h.length < 2^32) (hs : ∀ b, bsize h b < 2^32) : ∀ (fuel : Nat),
    (∀ b i, b < h.length → i < bsize h b → (fromPos h b i).length < fuel →
      foreachFrom h fuel (mkIter b i) = .ok (fromPos h b i)) ∧
    (∀ b it, First h b it → b ≤ h.length → (fromBucket h b).length < fuel →
      foreachFrom h fuel it = .ok (fromBucket h b))
  | 0 => ⟨fun _ _ _ _ h => by omega, fun _ _ _ _ h => by omega⟩
  | fuel + 1 => by
    obtain ⟨ih1, ih2⟩ := foreachFrom_spec hl hs fuel
    have hA : ∀ b i, b < h.length → i < bsize h b → (fromPos h b i).length < fuel + 1 →
        foreachFrom h (fuel + 1) (mkIter b i) = .ok (fromPos h b i) := by
      intro b i hb hi hf
      have hsz := hs b
      rw [fromPos_cons hi] at hf ⊢
      simp only [List.length_cons] at hf
      unfold foreachFrom iterValid
      rw [bucketValid_spec (by omega) (by omega), if_pos (by simpa using hb), indexValid_spec hb (by omega) (by omega)]
      simp only [ok_bindE]
      rw [if_pos (by simpa using hi)]
      obtain ⟨it, e1, e2⟩ := nextValid_spec hl (h.length + 1) b i hb (by omega) (by omega)
      rw [e1]
      simp only [ok_bindE]
      by_cases hi1 : i + 1 < bsize h b
      · rw [if_pos hi1] at e2
        subst e2
        rw [ih1 b (i + 1) hb hi1 (by omega)]
        rfl
      · rw [if_neg hi1] at e2
        rw [fromPos_end (i := i + 1) (by omega)] at hf ⊢
        rw [ih2 (b + 1) it e2 (by omega) (by omega)]
        rfl
    refine ⟨hA, ?_⟩
    intro b it hfi hb hf
    rcases hfi with ⟨b', f1, f2, f3, f4, f5⟩ | ⟨f1, f2⟩
    · subst f5
      rw [fromBucket_skip f1 (by omega) f4, fromBucket_pos f2] at hf ⊢
      exact hA b' 0 f2 f3 hf
    · subst f2
      rw [fromBucket_skip hb (Nat.le_refl _) (fun j h1 h2 => f1 j h1 h2), fromBucket_end]
      unfold foreachFrom iterValid
      rw [bucketValid_spec (by omega) (by omega)]
      simp [pure_eq_ok]

theorem foreach_spec {h : List BM} (h0 : 0 < h.length) (hl : h.length < 2^32) (hs : ∀ b, bsize h b < 2^32) (fuel : Nat)
    (hf : (allIters h).length < fuel) : foreach h fuel = .ok (allIters h) := by
  have he : allIters h = fromBucket h 0 := by
    unfold allIters fromBucket
    rw [List.range_eq_range']
    rfl
  rw [he] at hf ⊢
  obtain ⟨i1, i2⟩ := foreachFrom_spec hl hs fuel
  have hz := zero_mkIter
  unfold foreach iterValid
  rw [hz, bucketValid_spec (by omega) (by omega), if_pos (by simpa using h0), indexValid_spec h0 (by omega) (by omega)]
  simp only [ok_bindE]
  by_cases hb : 0 < bsize h 0
  · rw [if_pos (by simpa using hb)]
    simp only [pure_eq_ok, ok_bindE]
    exact i2 0 _ (.inl ⟨0, by omega, h0, hb, fun j _ h => by omega, hz⟩) (by omega) hf
  · rw [if_neg (by simpa using hb)]
    obtain ⟨it, e1, e2⟩ := nextValid_spec hl (h.length + 1) 0 0 h0 (by omega) (by omega)
    rw [e1]
    simp only [ok_bindE]
    rw [if_neg (by omega)] at e2
    have hsk : fromBucket h 0 = fromBucket h 1 := fromBucket_skip (by omega) (by omega) (fun j h1 h2 => by
      have : j = 0 := by omega
      subst this; omega)
    rw [hsk] at hf ⊢
    exact i2 1 it e2 (by omega) hf

/-! ### Entries -/

theorem lookup_some {cmp : List Byte → List Byte → Int} (hc : TotalPreorder cmp) {S : List KV}
    (hs : S.Pairwise fun x y => cmp x.1 y.1 < 0) {k v : List Byte} :
    lookup cmp S k = some v ↔ ∃ e ∈ S, cmp k e.1 = 0 ∧ e.2 = v := by
  constructor
  · intro h
    unfold lookup at h
    obtain ⟨e, he, rfl⟩ := Option.map_eq_some_iff.1 h
    exact ⟨e, List.mem_of_find?_eq_some he, by simpa using List.find?_some he, rfl⟩
  · rintro ⟨e, he, h1, rfl⟩
    obtain ⟨i, hi, rfl⟩ := List.getElem_of_mem he
    rw [(lookup_split hc hs hi).1]
    unfold upd
    rw [if_pos h1]

theorem bsize_view {c : HCfg} {h Ss} (hv : HView c h Ss) {b : Nat} (hb : b < Ss.length) : bsize h b = Ss[b].length := by
  have hbh : b < h.length := by rw [hv.len]; exact hb
  rw [bsize_eq hbh, (hv.view b hbh).keys.count]
  simp

theorem bsize_lt {c : HCfg} {h Ss} (hv : HView c h Ss) {n : Nat} (hn : SizeLe Ss n) (hn32 : n < 2^32) {b : Nat} :
    bsize h b < 2^32 := by
  by_cases hb : b < Ss.length
  · rw [bsize_view hv hb]
    have := hn _ (List.getElem_mem hb)
    omega
  · have : h[b]? = none := by simp [hv.len]; omega
    simp [bsize, this]

theorem mem_allIters {c : HCfg} {h Ss} (hv : HView c h Ss) {it} (hit : it ∈ allIters h) :
    ∃ (b : Nat) (hb : b < Ss.length) (i : Nat) (_ : i < Ss[b].length), it = mkIter b i := by
  unfold allIters at hit
  simp only [List.mem_flatMap, List.mem_range, List.mem_map] at hit
  obtain ⟨b, hb, i, hi, rfl⟩ := hit
  rw [hv.len] at hb
  have h2 := bsize_view hv hb
  unfold bsize at h2
  exact ⟨b, hb, i, by rw [← h2]; exact hi, rfl⟩

theorem entry_spec {c : HCfg} {h Ss} (hv : HView c h Ss) {n : Nat} (hn : SizeLe Ss n) (hn32 : n < 2^32)
    (hk : n * c.ksz < 2^64) (hvz : n * c.vsz < 2^64) {b i : Nat} (hb : b < Ss.length) (hi : i < Ss[b].length) :
    mkIter b i ∈ allIters h ∧ hgetkey c h (mkIter b i) = .ok Ss[b][i].1 ∧ hgetval c h (mkIter b i) = .ok Ss[b][i].2 := by
  have hbh : b < h.length := by rw [hv.len]; exact hb
  have hb32 : b < 2^32 := by have := hv.small; omega
  have hle := hn _ (List.getElem_mem hb)
  have hi32 : i < 2^32 := by omega
  have hV := hv.view b hbh
  refine ⟨?_, ?_, ?_⟩
  · unfold allIters
    simp only [List.mem_flatMap, List.mem_range, List.mem_map]
    refine ⟨b, hbh, i, ?_, rfl⟩
    have := bsize_view hv hb
    unfold bsize at this
    rw [this]; exact hi
  · unfold hgetkey
    rw [iterBucket_mk hb32 hi32, iterIndex_mk hb32 hi32, bucket_spec hbh]
    simp only [ok_bindE, getkey]
    rw [Tglist.get_spec hV.keys (mul_lt_of hk (by rw [hV.keys.count]; simpa using hle)) (i := i) (by simpa using hi)]
    simp
  · unfold hgetval
    rw [iterBucket_mk hb32 hi32, iterIndex_mk hb32 hi32, bucket_spec hbh]
    simp only [ok_bindE, getval]
    rw [Tglist.get_spec hV.values (mul_lt_of hvz (by rw [hV.values.count]; simpa using hle)) (i := i) (by simpa using hi)]
    simp

theorem bidx_entry {c : HCfg} {h Ss} (hv : HView c h Ss) {b i : Nat} (hb : b < Ss.length) (hi : i < Ss[b].length) :
    bidx c Ss Ss[b][i].1 = b := by
  unfold bidx
  rw [← hv.len]
  exact hv.home b hb _ (List.getElem_mem _)

theorem hlook_entry {c : HCfg} (hc : HCfgOk c) {h Ss} (hv : HView c h Ss) {b i : Nat} (hb : b < Ss.length)
    (hi : i < Ss[b].length) : hlook c Ss Ss[b][i].1 = some Ss[b][i].2 := by
  unfold hlook
  rw [bidx_entry hv hb hi, getD_lt hb]
  have hbh : b < h.length := by rw [hv.len]; exact hb
  rw [lookup_some hc.cmp (hv.view b hbh).sorted]
  exact ⟨_, List.getElem_mem hi, hc.cmp.refl _, rfl⟩

theorem entry_unique {c : HCfg} (hc : HCfgOk c) {h Ss} (hv : HView c h Ss) {b i b' i' : Nat} (hb : b < Ss.length)
    (hi : i < Ss[b].length) (hb' : b' < Ss.length) (hi' : i' < Ss[b'].length)
    (h0 : c.cmp Ss[b][i].1 Ss[b'][i'].1 = 0) : mkIter b i = mkIter b' i' := by
  have e : b = b' := by
    rw [← bidx_entry hv hb hi, ← bidx_entry hv hb' hi']
    unfold bidx
    rw [hc.hash _ _ h0]
  subst e
  have hbh : b < h.length := by rw [hv.len]; exact hb
  have hs := (hv.view b hbh).sorted
  rw [List.pairwise_iff_getElem] at hs
  have : i = i' := by
    rcases Nat.lt_trichotomy i i' with h1 | h1 | h1
    · have := hs i i' hi hi' h1; omega
    · exact h1
    · have := hs i' i hi' hi h1
      have := cmp_symm hc.cmp h0
      omega
  rw [this]

theorem allIters_sorted {c : HCfg} {h Ss} (hv : HView c h Ss) {n : Nat} (hn : SizeLe Ss n) (hn32 : n < 2^32) :
    (allIters h).Pairwise fun a b => a.toNat < b.toNat := by
  have hs : ∀ b, bsize h b < 2^32 := fun b => bsize_lt hv hn hn32
  have hl := hv.small
  unfold allIters
  rw [List.pairwise_flatMap]
  constructor
  · intro b hb
    simp only [List.mem_range] at hb
    rw [List.pairwise_map]
    refine List.Pairwise.imp_of_mem ?_ List.pairwise_lt_range
    intro i j hi hj hij
    have := hs b
    unfold bsize at this
    simp only [List.mem_range] at hi hj
    rw [mkIter_toNat (by omega) (by omega), mkIter_toNat (by omega) (by omega)]
    omega
  · refine List.Pairwise.imp_of_mem ?_ List.pairwise_lt_range
    intro b b' hb hb' hbb x hx y hy
    simp only [List.mem_range, List.mem_map] at hb hb' hx hy
    obtain ⟨i, hi, rfl⟩ := hx
    obtain ⟨j, hj, rfl⟩ := hy
    have h1 := hs b
    have h2 := hs b'
    unfold bsize at h1 h2
    rw [mkIter_toNat (by omega) (by omega), mkIter_toNat (by omega) (by omega)]
    omega

end Ulz.Bmap

import Verif.Spec.Ibmap
import Verif.Proofs.Bmap
/-! Lemmas about bmap with indexed values. -/
namespace Ulz.Ibmap
open Spec
open Ulz.Bmap (Cfg KV Cmp cmp_symm lookup_mid lookup_none lookup_congr upd_congr rem_congr lookup_split)
open Ulz.Bmap.Spec (CfgOk lookup upd rem Map)
open Ulz.Sblist (mul_lt_of)
open Ulz.Sblist.Spec (TotalPreorder Sorted)
open Ulz.Tglist (IRep look leVal leBytes TG TGI hfree)
open Ulz.Tglist.Spec (Rep)

theorem nodup_le : ∀ (n : Nat) (l : List Nat), l.Nodup → (∀ i ∈ l, i < n) → l.length ≤ n
  | 0, l, _, h => by
    cases l with
    | nil => simp
    | cons a l => exact absurd (h a (by simp)) (by omega)
  | n + 1, l, hn, h => by
    by_cases hm : n ∈ l
    · have := nodup_le n (l.erase n) (hn.erase n) (fun i hi => by
        have h1 := (List.Nodup.mem_erase_iff hn).1 hi
        have := h i h1.2
        omega)
      rw [List.length_erase_of_mem hm] at this
      omega
    · have := nodup_le n l hn (fun i hi => by
        have := h i hi
        have : i ≠ n := fun e => hm (e ▸ hi)
        omega)
      omega

theorem pow_w : 256^W = 2^32 := by decide

theorem Spec.View.irep {c b S idxs vals} (h : View c b S idxs vals) : IRep W c.vsz b.values idxs vals :=
  ⟨h.index, h.items, h.nodup, h.lt, by rw [pow_w]; exact h.fit⟩

theorem Spec.View.of {c : Cfg} {b : BMI} {S idxs vals} (h1 : Rep c.ksz b.keys (S.map Prod.fst)) (h2 : IRep W c.vsz b.values idxs vals)
    (h3 : S.map Prod.snd = look vals idxs) (h4 : S.Pairwise fun x y => c.cmp x.1 y.1 < 0) : View c b S idxs vals :=
  ⟨h1, h2.index, h2.items, h2.nodup, h2.lt, by have := h2.fit; rwa [pow_w] at this, h3, h4⟩

theorem Spec.View.len {c b S idxs vals} (h : View c b S idxs vals) : idxs.length = S.length := by
  have := congrArg List.length h.slots
  simpa using this.symm

theorem Spec.View.le {c b S idxs vals} (h : View c b S idxs vals) : S.length ≤ vals.length := by
  rw [← h.len]; exact nodup_le _ _ h.nodup h.lt

theorem Spec.View.kcount {c b S idxs vals} (h : View c b S idxs vals) : b.keys.count = S.length := by rw [h.keys.count]; simp
theorem Spec.View.icount {c b S idxs vals} (h : View c b S idxs vals) : b.values.index.count = S.length := by
  rw [h.index.count, List.length_map, h.len]

theorem Spec.View.bmap {c b S idxs vals} (h : View c b S idxs vals) :
    Bmap.Spec.View c ⟨b.keys, ⟨S.length, S.length, (S.map Prod.snd).flatten⟩⟩ S := by
  refine ⟨h.keys, ⟨h.items.pos, by simp, ?_, Nat.le_refl _, [], by simp, by simp⟩, h.sorted⟩
  intro x hx
  rw [h.slots] at hx
  obtain ⟨i, hi, rfl⟩ := List.mem_map.1 hx
  have := h.lt i hi
  rw [List.getD_eq_getElem?_getD, List.getElem?_eq_getElem this]
  exact h.items.item _ (List.getElem_mem this)

theorem find_spec {c : Cfg} (hc : CfgOk c) {b S idxs vals} (h : View c b S idxs vals) (hb : b.keys.count * c.ksz < 2^64)
    (k : List Byte) :
    (∃ i, ∃ hi : i < S.length, find c b k = .ok (some i) ∧ c.cmp k S[i].1 = 0 ∧ lookup c.cmp S k = some S[i].2) ∨
    (find c b k = .ok none ∧ (∀ e ∈ S, c.cmp k e.1 ≠ 0) ∧ lookup c.cmp S k = none) :=
  Bmap.find_spec hc h.bmap hb k

theorem strict_insert {cmp : Cmp} (hc : TotalPreorder cmp) {S : List KV} (hs : S.Pairwise fun x y => cmp x.1 y.1 < 0) {p : Nat}
    {k v : List Byte} (hnew : ∀ e ∈ S, cmp k e.1 ≠ 0)
    (hs' : Sorted cmp ((S.map Prod.fst).take p ++ k :: (S.map Prod.fst).drop p)) :
    (S.take p ++ (k, v) :: S.drop p).Pairwise fun x y => cmp x.1 y.1 < 0 := by
  have h0 := hs
  rw [← List.take_append_drop p S, List.pairwise_append] at h0
  unfold Sorted at hs'
  rw [← List.map_take, ← List.map_drop, List.pairwise_append] at hs'
  rw [List.pairwise_append]
  refine ⟨h0.1, List.pairwise_cons.2 ⟨?_, h0.2.1⟩, ?_⟩
  · intro e he
    have h1 := (List.pairwise_cons.1 hs'.2.1).1 e.1 (List.mem_map_of_mem he)
    have h2 := hnew e (List.mem_of_mem_drop he)
    simp only
    omega
  · intro e he e' he'
    rcases List.mem_cons.1 he' with rfl | he'
    · have h1 := hs'.2.2 e.1 (List.mem_map_of_mem he) k (by simp)
      have h2 := hnew e (List.mem_of_mem_take he)
      simp only
      by_cases h3 : cmp e.1 k = 0
      · exact absurd (cmp_symm hc h3) h2
      · omega
    · exact h0.2.2 e he e' he'

theorem add_full {isz} {l : TG} (hf : l.count = l.capa) (x : List Byte) : Tglist.add isz none l x = .ok (l, 0) := by
  simp [Tglist.add, Tglist.grow_if_needed, hf, realloc, pure_eq_ok]

theorem iinsert_exact {w isz} {l : TGI} {idxs vals} (h : IRep w isz l idxs vals) (hw : (2 * vals.length + 4) * w < 2^64)
    (hic : l.index.count ≤ vals.length) (hs : (2 * vals.length + 4) * isz < 2^64) (hlt : vals.length < 256^w) (a1 a2 : Alloc)
    (x : List Byte) (hx : x.length = isz) {pos} (hp : pos ≤ idxs.length) :
    if (a2 = none ∧ l.items.count = l.items.capa) ∨ (a1 = none ∧ l.index.count = l.index.capa) then
      ∃ l', Tglist.iinsert w isz a1 a2 l x pos = .ok (l', 0) ∧ IRep w isz l' idxs vals
    else ∃ l', Tglist.iinsert w isz a1 a2 l x pos = .ok (l', 1) ∧
      IRep w isz l' (idxs.take pos ++ vals.length :: idxs.drop pos) (vals ++ [x]) ∧
      look (vals ++ [x]) (idxs.take pos ++ vals.length :: idxs.drop pos) =
        (look vals idxs).take pos ++ x :: (look vals idxs).drop pos := by
  by_cases h1 : a2 = none ∧ l.items.count = l.items.capa
  · rw [if_pos (.inl h1)]
    obtain ⟨rfl, hf⟩ := h1
    unfold Tglist.iinsert
    rw [add_full hf]
    exact ⟨_, rfl, h⟩
  · by_cases h2 : a1 = none ∧ l.index.count = l.index.capa
    · rw [if_pos (.inr h2)]
      rcases Tglist.iinsert_spec h hw hic hs hlt a1 a2 x hx hp with ⟨l', r1, _⟩ | ⟨l', _, r1, r2⟩
      · exfalso
        obtain ⟨rfl, hf⟩ := h2
        unfold Tglist.iinsert at r1
        rcases Tglist.add_spec h.items (by rw [h.items.count]; exact hs) a2 x hx with ⟨t, s1, _⟩ | ⟨s1, s2, _⟩
        · rw [s1] at r1
          simp only [ok_bind, Nat.one_ne_zero, if_false] at r1
          rw [Tglist.insert_full hf] at r1
          simp only [ok_bind, ne_eq, not_true_eq_false, if_false, pure_eq_ok] at r1
          injection r1 with r1
          injection r1 with _ r1
          cases r1
        · exact h1 ⟨s1, s2⟩
      · exact ⟨l', r1, r2⟩
    · rw [if_neg (by rintro (h | h); exact h1 h; exact h2 h)]
      rcases Tglist.iinsert_spec h hw hic hs hlt a1 a2 x hx hp with r | ⟨l', _, r1, _⟩
      · exact r
      · exfalso
        unfold Tglist.iinsert at r1
        rcases Tglist.add_spec h.items (by rw [h.items.count]; exact hs) a2 x hx with ⟨t, s1, _⟩ | ⟨s1, s2, _⟩
        · rw [s1] at r1
          simp only [ok_bind, Nat.one_ne_zero, if_false] at r1
          rcases Tglist.insert_spec h.index (mul_lt_of hw (by omega)) a1 (leBytes w (t.count - 1)) (Tglist.leBytes_length _ _) (pos := pos)
            (by simpa using hp) with ⟨ix, t1, _⟩ | ⟨t1, t2, _⟩
          · rw [t1] at r1
            simp only [ok_bind, ne_eq, Nat.one_ne_zero, not_false_eq_true, if_true, pure_eq_ok] at r1
            injection r1 with r1
            injection r1 with _ r1
            cases r1
          · exact h2 ⟨t1, t2⟩
        · exact h1 ⟨s1, s2⟩

theorem w_small {n : Nat} (h : n < 2^32) : (2 * n + 4) * W < 2^64 := by
  have : W = 4 := rfl
  rw [this]; omega

theorem nocheck_spec {c : Cfg} (hc : CfgOk c) {b S idxs vals} (h : View c b S idxs vals) (hk : (2 * S.length + 4) * c.ksz < 2^64)
    (hv : (2 * vals.length + 4) * c.vsz < 2^64) (hlt : vals.length < 2^32) (a1 a2 a3 : Alloc) (k v : List Byte) (hkl : k.length = c.ksz)
    (hvl : v.length = c.vsz) (hnew : ∀ e ∈ S, c.cmp k e.1 ≠ 0) :
    if a1 = none ∧ b.keys.count = b.keys.capa then insert_nocheck c a1 a2 a3 b k v = .ok (b, none, none)
    else if (a3 = none ∧ b.values.items.count = b.values.items.capa) ∨ (a2 = none ∧ b.values.index.count = b.values.index.capa) then
      ∃ b' p, p ≤ S.length ∧ insert_nocheck c a1 a2 a3 b k v = .ok (b', none, some p) ∧ View c b' S idxs vals
    else ∃ b' p, p ≤ S.length ∧ insert_nocheck c a1 a2 a3 b k v = .ok (b', some p, some p) ∧
      View c b' (S.take p ++ (k, v) :: S.drop p) (idxs.take p ++ vals.length :: idxs.drop p) (vals ++ [v]) ∧
      lookup c.cmp (S.take p ++ (k, v) :: S.drop p) = upd c.cmp (lookup c.cmp S) k v := by
  unfold insert_nocheck
  have hk' : (2 * b.keys.count + 4) * c.ksz < 2^64 := by rw [h.kcount]; exact hk
  rcases Tglist.insert_sorted_spec h.keys hk' a1 k hkl c.cmp with ⟨ks, p, r1, r2, r3, r4⟩ | ⟨r1, rf, r2⟩
  · have hnk : ¬ (a1 = none ∧ b.keys.count = b.keys.capa) := by
      rintro ⟨rfl, e⟩
      exact Tglist.insert_sorted_full e r1
    rw [if_neg hnk, r1]
    simp only [ok_bind]
    simp only [List.length_map] at r2
    have hi := iinsert_exact h.irep (w_small hlt) (by rw [h.icount]; exact h.le) hv (by rw [pow_w]; exact hlt) a2 a3 v hvl (pos := p) (by rw [h.len]; exact r2)
    by_cases hf : (a3 = none ∧ b.values.items.count = b.values.items.capa) ∨ (a2 = none ∧ b.values.index.count = b.values.index.capa)
    · rw [if_pos hf] at hi ⊢
      obtain ⟨l', s1, s2⟩ := hi
      rw [s1]
      simp only [ok_bind, ne_eq, not_true_eq_false, if_false]
      have hkc2 : ks.count = S.length + 1 := by rw [r3.count]; simp; omega
      obtain ⟨ks', d1, d2, _, _⟩ := Tglist.delete_spec r3 (mul_lt_of hk (by omega)) (i := p) (by simp; omega)
      rw [d1]
      refine ⟨_, p, r2, rfl, View.of ?_ s2 h.slots h.sorted⟩
      have : ((S.map Prod.fst).take p ++ k :: (S.map Prod.fst).drop p).eraseIdx p = S.map Prod.fst := by
        rw [List.eraseIdx_append_of_length_le (by simp; omega)]
        simp [Nat.min_eq_left r2]
      rw [this] at d2
      exact d2
    · rw [if_neg hf] at hi ⊢
      obtain ⟨l', s1, s2, s3⟩ := hi
      rw [s1]
      simp only [ok_bind, ne_eq, Nat.one_ne_zero, not_false_eq_true, if_true]
      have hsorted : Sorted c.cmp (S.map Prod.fst) := by
        unfold Sorted
        rw [List.pairwise_map]
        exact h.sorted.imp fun h => by omega
      have hstrict := strict_insert (v := v) hc.cmp h.sorted hnew (r4 hc.cmp hsorted)
      refine ⟨_, p, r2, rfl, View.of (by simpa [List.map_take, List.map_drop] using r3) s2 ?_ hstrict, ?_⟩
      · rw [s3]
        simp only [List.map_append, List.map_cons, List.map_take, List.map_drop, h.slots]
        rfl
      · rw [lookup_mid hc.cmp hstrict, List.take_append_drop]
  · rw [if_pos ⟨r1, rf⟩, r2]
    rfl

theorem iset_spec {w isz} {l : TGI} {idxs vals} (h : IRep w isz l idxs vals) (hw : l.index.count * w < 2^64)
    (hs : l.items.count * isz < 2^64) {pos : Nat} (hp : pos < idxs.length) (x : List Byte) (hx : x.length = isz) :
    ∃ l', Tglist.iset w isz l x pos = .ok (l', 1) ∧ IRep w isz l' idxs (vals.set idxs[pos] x) ∧
      look (vals.set idxs[pos] x) idxs = (look vals idxs).set pos x := by
  obtain ⟨t, s1, s2, s3⟩ := Tglist.set_spec h.items hs x hx (pos := idxs[pos]) (h.lt _ (List.getElem_mem _))
  refine ⟨{ l with items := t }, ?_, ⟨h.index, s2, h.nodup, by simpa using h.lt, by simpa using h.fit⟩, ?_⟩
  · simp only [Tglist.iset, Tglist.iidx_spec h hw hp, ok_bind, s1]; rfl
  · apply List.ext_getElem
    · simp [look]
    · intro i h1 h2
      simp only [look, List.length_map] at h1
      simp only [look, List.getElem_map, List.getElem_set, List.getD_eq_getElem?_getD, List.getElem?_set]
      by_cases he : pos = i
      · subst he
        simp [h.lt _ (List.getElem_mem hp)]
      · have : idxs[pos] ≠ idxs[i] := fun hh => he ((List.getElem_inj h.nodup).1 hh)
        simp [he, this]

theorem set_view {c : Cfg} (hc : CfgOk c) {b S idxs vals} (h : View c b S idxs vals) (hv : vals.length * c.vsz < 2^64) {i : Nat}
    (hi : i < S.length) (v : List Byte) (hvl : v.length = c.vsz) :
    ∃ vs vals', Tglist.iset W c.vsz b.values v i = .ok (vs, 1) ∧ View c ⟨b.keys, vs⟩ (S.set i (S[i].1, v)) idxs vals' ∧
      vals'.length = vals.length ∧ lookup c.cmp (S.set i (S[i].1, v)) = upd c.cmp (lookup c.cmp S) S[i].1 v := by
  have hf := h.fit
  have hle := h.le
  obtain ⟨vs, s1, s2, s3⟩ := iset_spec h.irep (by rw [h.icount, show W = 4 from rfl]; omega)
    (by rw [h.items.count]; exact hv) (pos := i) (by rw [h.len]; exact hi) v hvl
  have fake := h.bmap
  obtain ⟨fvs, f1, f2, f3⟩ := Bmap.set_view hc fake (by exact mul_lt_of hv hle) hi v hvl
  refine ⟨vs, _, s1, View.of f2.keys s2 ?_ f2.sorted, by simp, f3⟩
  rw [s3, Bmap.map_set, h.slots]
  rfl

theorem insert_spec {c : Cfg} (hc : CfgOk c) {b S idxs vals} (h : View c b S idxs vals) (hk : (2 * S.length + 4) * c.ksz < 2^64)
    (hv : (2 * vals.length + 4) * c.vsz < 2^64) (hlt : vals.length < 2^32) (a1 a2 a3 : Alloc) (k v : List Byte) (hkl : k.length = c.ksz)
    (hvl : v.length = c.vsz) :
    (∃ b' S' idxs' vals' i, ∃ hi : i < S'.length, insert c a1 a2 a3 b k v = .ok (b', some i) ∧ View c b' S' idxs' vals' ∧
      c.cmp k S'[i].1 = 0 ∧ S'[i].2 = v ∧ S'.length ≤ S.length + 1 ∧ vals'.length ≤ vals.length + 1 ∧
      lookup c.cmp S' = upd c.cmp (lookup c.cmp S) k v) ∨
    (lookup c.cmp S k = none ∧ (a1 = none ∨ a2 = none ∨ a3 = none) ∧ ∃ b' r, insert c a1 a2 a3 b k v = .ok (b', r) ∧
      View c b' S idxs vals) := by
  unfold insert
  rcases find_spec hc h (mul_lt_of hk (by rw [h.kcount]; omega)) k with ⟨i, hi, f1, f2, f3⟩ | ⟨f1, f2, f3⟩
  · left
    rw [f1]
    simp only [ok_bind]
    obtain ⟨vs, vals', s1, s2, s3, s4⟩ := set_view hc h (mul_lt_of hv (by omega)) hi v hvl
    rw [s1]
    refine ⟨_, _, _, _, i, by simpa using hi, rfl, s2, by simpa using f2, by simp, by simp, by omega, ?_⟩
    rw [s4, upd_congr hc.cmp f2]
  · rw [f1]
    simp only [ok_bind]
    have hn := nocheck_spec hc h hk hv hlt a1 a2 a3 k v hkl hvl f2
    split at hn
    · rename_i hh
      right
      rw [hn]
      exact ⟨f3, .inl hh.1, b, none, rfl, h⟩
    · split at hn
      · rename_i hh
        obtain ⟨b', p, r1, r2, r3⟩ := hn
        right
        rw [r2]
        exact ⟨f3, hh.elim (fun h => .inr (.inr h.1)) (fun h => .inr (.inl h.1)), b', some p, rfl, r3⟩
      · obtain ⟨b', p, r1, r2, r3, r4⟩ := hn
        left
        rw [r2]
        refine ⟨b', _, _, _, p, by simp; omega, rfl, r3, ?_, ?_, by simp; omega, by simp, r4⟩
        · rw [List.getElem_append_right (by simp; omega)]; simp [Nat.min_eq_left r1, hc.cmp.refl]
        · rw [List.getElem_append_right (by simp; omega)]; simp [Nat.min_eq_left r1]

theorem getval_spec {c : Cfg} {b S idxs vals} (h : View c b S idxs vals) (hv : vals.length * c.vsz < 2^64) {i : Nat}
    (hi : i < S.length) : getval c b i = .ok S[i].2 := by
  have hf := h.fit
  have hle := h.le
  have hp : i < idxs.length := by rw [h.len]; exact hi
  have hlt := h.lt _ (List.getElem_mem hp)
  unfold getval Tglist.iget
  rw [Tglist.iidx_spec h.irep (by rw [h.icount, show W = 4 from rfl]; omega) hp, ok_bind,
    Tglist.get_spec h.items (by rw [h.items.count]; exact hv) hlt]
  have e : (S.map Prod.snd)[i]? = (idxs.map fun i => vals.getD i [])[i]? := by rw [h.slots]
  rw [List.getElem?_map, List.getElem?_map, List.getElem?_eq_getElem hi, List.getElem?_eq_getElem hp] at e
  simp only [Option.map_some, Option.some.injEq] at e
  rw [e]
  simp [List.getD_eq_getElem?_getD, hlt]

theorem get_spec {c : Cfg} (hc : CfgOk c) {b S idxs vals} (h : View c b S idxs vals) (hk : S.length * c.ksz < 2^64)
    (hv : vals.length * c.vsz < 2^64) (k : List Byte) : get c b k = .ok (lookup c.cmp S k) := by
  unfold get
  rcases find_spec hc h (by rw [h.kcount]; exact hk) k with ⟨i, hi, f1, f2, f3⟩ | ⟨f1, f2, f3⟩
  · rw [f1]
    simp only [ok_bind]
    rw [getval_spec h hv hi, f3]
    rfl
  · rw [f1, f3]
    rfl

theorem delete_view {c : Cfg} (hc : CfgOk c) {b S idxs vals} (h : View c b S idxs vals) (hk : S.length * c.ksz < 2^64) {i : Nat}
    (hi : i < S.length) : ∃ b', delete c b i = .ok b' ∧ View c b' (S.eraseIdx i) (idxs.eraseIdx i) vals ∧
      lookup c.cmp (S.eraseIdx i) = rem c.cmp (lookup c.cmp S) S[i].1 := by
  have hf := h.fit
  have hle := h.le
  unfold delete Tglist.idelete
  obtain ⟨ks, d1, d2, _⟩ := Tglist.delete_spec h.keys (by rw [h.kcount]; exact hk) (i := i) (by simpa using hi)
  obtain ⟨ix, e1, e2, _⟩ := Tglist.delete_spec h.index (by rw [h.icount, show W = 4 from rfl]; omega) (i := i)
    (by rw [List.length_map, h.len]; exact hi)
  rw [d1, ok_bind, e1]
  refine ⟨_, rfl, ⟨?_, ?_, h.items, h.nodup.eraseIdx i, fun j hj => h.lt j (List.mem_of_mem_eraseIdx hj), h.fit, ?_,
    h.sorted.sublist (List.eraseIdx_sublist ..)⟩, ?_⟩
  · rw [Tglist.map_eraseIdx']; exact d2
  · rw [Tglist.map_eraseIdx']; exact e2
  · rw [Tglist.map_eraseIdx', Tglist.map_eraseIdx', h.slots]
  · rw [(lookup_split hc.cmp h.sorted hi).2, List.eraseIdx_eq_take_drop_succ]

theorem step_spec {c : Cfg} (hc : CfgOk c) {b S idxs vals} (h : View c b S idxs vals) (hk : (2 * S.length + 4) * c.ksz < 2^64)
    (hv : (2 * vals.length + 4) * c.vsz < 2^64) (hlt : vals.length < 2^32) (op : Op) (hop : OpOk c op) :
    ∃ b' r S' idxs' vals', step c b op = .ok (b', r) ∧ Step c.cmp (lookup c.cmp S) op (lookup c.cmp S') r ∧
      View c b' S' idxs' vals' ∧ S'.length ≤ S.length + 1 ∧ vals'.length ≤ vals.length + 1 := by
  have hk0 : S.length * c.ksz < 2^64 := mul_lt_of hk (by omega)
  have hk1 : b.keys.count * c.ksz < 2^64 := by rw [h.kcount]; exact hk0
  have hv0 : vals.length * c.vsz < 2^64 := mul_lt_of hv (by omega)
  cases op with
  | insert k v a1 a2 a3 =>
    rcases insert_spec hc h hk hv hlt a1 a2 a3 k v hop.1 hop.2 with ⟨b', S', idxs', vals', i, hi, r1, r2, _, _, r3, r4, r5⟩ | ⟨r0, r1, b', r, r2, r3⟩
    · exact ⟨b', _, S', _, _, by simp only [step, r1]; rfl, by rw [r5]; exact .insert, r2, r3, r4⟩
    · exact ⟨b', _, S, _, _, by simp only [step, r2]; rfl, .insertFail r0 r1, r3, by omega, by omega⟩
  | get k =>
    exact ⟨b, _, S, _, _, by simp only [step, get_spec hc h hk0 hv0]; rfl, .get, h, by omega, by omega⟩
  | contains k =>
    refine ⟨b, _, S, _, _, ?_, .contains, h, by omega, by omega⟩
    rcases find_spec hc h hk1 k with ⟨i, hi, f1, f2, f3⟩ | ⟨f1, f2, f3⟩ <;> (simp only [step, f1, f3]; rfl)
  | del k =>
    rcases find_spec hc h hk1 k with ⟨i, hi, f1, f2, f3⟩ | ⟨f1, f2, f3⟩
    · obtain ⟨b', d1, d2, d3⟩ := delete_view hc h hk0 hi
      refine ⟨b', .bool true, S.eraseIdx i, _, _, by simp only [step, f1, ok_bind, d1]; rfl, ?_, d2, ?_, by omega⟩
      · have := Step.del (cmp := c.cmp) (M := lookup c.cmp S) (k := k)
        rw [f3] at this
        rw [d3, ← rem_congr hc.cmp f2]
        exact this
      · rw [List.length_eraseIdx]; split <;> omega
    · refine ⟨b, .bool false, S, _, _, by simp only [step, f1]; rfl, ?_, h, by omega, by omega⟩
      have := Step.del (cmp := c.cmp) (M := lookup c.cmp S) (k := k)
      rw [f3] at this
      have e : rem c.cmp (lookup c.cmp S) k = lookup c.cmp S := by
        funext x
        unfold rem
        split
        · rename_i hx; rw [lookup_congr hc.cmp hx, f3]
        · rfl
      rw [e] at this
      exact this

theorem run_spec {c : Cfg} (hc : CfgOk c) : ∀ (ops : List Op) (b : BMI) (S : List KV) idxs vals, View c b S idxs vals →
    (2 * (S.length + ops.length) + 4) * c.ksz < 2^64 → (2 * (vals.length + ops.length) + 4) * c.vsz < 2^64 →
    vals.length + ops.length ≤ 2^32 → (∀ op ∈ ops, OpOk c op) →
    ∃ b' rs S' idxs' vals', run c b ops = .ok (b', rs) ∧ Steps c.cmp (lookup c.cmp S) ops (lookup c.cmp S') rs ∧
      View c b' S' idxs' vals' ∧ S'.length ≤ S.length + ops.length ∧ vals'.length ≤ vals.length + ops.length
  | [], b, S, idxs, vals, h, _, _, _, _ => ⟨b, [], S, idxs, vals, rfl, .nil, h, by simp, by simp⟩
  | op :: ops, b, S, idxs, vals, h, hk, hv, hlt, hop => by
    simp only [List.length_cons] at hk hv hlt
    obtain ⟨b1, r, S1, i1, v1, h1, h2, h3, h4, h5⟩ := step_spec hc h (mul_lt_of hk (by omega)) (mul_lt_of hv (by omega)) (by omega) op
      (hop op (by simp))
    obtain ⟨b2, rs, S2, i2, v2, r1, r2, r3, r4, r5⟩ := run_spec hc ops b1 S1 i1 v1 h3 (mul_lt_of hk (by omega)) (mul_lt_of hv (by omega))
      (by omega) (fun o ho => hop o (by simp [ho]))
    exact ⟨b2, r :: rs, S2, i2, v2, by simp only [run, h1, ok_bind, r1]; rfl, .cons h2 r2, r3, by simp; omega, by simp; omega⟩

theorem init_view {c : Cfg} (hc : CfgOk c) : View c init [] [] [] :=
  View.of (Tglist.init_rep hc.ksz) (Tglist.iinit_rep (by decide) hc.vsz) rfl .nil

/-! ### Freeing -/

def freeAll : List Nat → List Nat → C (List Nat)
  | [], live => pure live
  | p :: ps, live => do freeAll ps (← hfree live p)

theorem freeAll_append : ∀ (ps qs live : List Nat), freeAll (ps ++ qs) live = freeAll ps live >>= freeAll qs
  | [], qs, live => rfl
  | p :: ps, qs, live => by
    simp only [List.cons_append, freeAll]
    cases hfree live p with
    | error e => rfl
    | ok l => simp only [ok_bind]; exact freeAll_append ps qs l

theorem freeAll_good : ∀ (ps live : List Nat), live.Nodup → Freeable ps live →
    ∃ live', freeAll ps live = .ok live' ∧ live'.Nodup ∧ ∀ a, a ∈ live' ↔ a ∈ live ∧ (a = 0 ∨ a ∉ ps)
  | [], live, hl, _ => ⟨live, rfl, hl, by simp⟩
  | p :: ps, live, hl, ⟨h1, h2⟩ => by
    by_cases h0 : p = 0
    · subst h0
      obtain ⟨live', r1, r2, r3⟩ := freeAll_good ps live hl ⟨by simpa using h1, fun q hq => h2 q (by simp [hq])⟩
      refine ⟨live', by simp only [freeAll, hfree, if_true, pure_eq_ok, ok_bind]; exact r1, r2, fun a => ?_⟩
      rw [r3]
      simp only [List.mem_cons, not_or]
      constructor
      · rintro ⟨a1, a2 | a2⟩
        · exact ⟨a1, .inl a2⟩
        · by_cases ha : a = 0
          · exact ⟨a1, .inl ha⟩
          · exact ⟨a1, .inr ⟨ha, a2⟩⟩
      · rintro ⟨a1, a2 | a2⟩
        · exact ⟨a1, .inl a2⟩
        · exact ⟨a1, .inr a2.2⟩
    · have hm := h2 p (by simp) h0
      simp only [ne_eq, decide_not, List.filter_cons, h0, decide_false, Bool.not_false, if_true, List.nodup_cons] at h1
      have hnot : p ∉ ps := fun hp => h1.1 (List.mem_filter.2 ⟨hp, by simpa using h0⟩)
      obtain ⟨live', r1, r2, r3⟩ := freeAll_good ps (live.erase p) (hl.erase p) ⟨by simpa using h1.2, fun q hq hq0 =>
        (List.Nodup.mem_erase_iff hl).2 ⟨fun e => hnot (e ▸ hq), h2 q (by simp [hq]) hq0⟩⟩
      refine ⟨live', by simp only [freeAll, hfree, if_neg h0, if_pos hm, pure_eq_ok, ok_bind]; exact r1, r2, fun a => ?_⟩
      rw [r3, List.Nodup.mem_erase_iff hl]
      simp only [List.mem_cons, not_or]
      constructor
      · rintro ⟨⟨a1, a2⟩, a3⟩; exact ⟨a2, a3.imp id fun h => ⟨a1, h⟩⟩
      · rintro ⟨a1, a2 | a2⟩
        · exact ⟨⟨by rw [a2]; exact fun e => h0 e.symm, a1⟩, .inl a2⟩
        · exact ⟨⟨a2.1, a1⟩, .inr a2.2⟩

theorem freeAll_bad : ∀ (ps live : List Nat), live.Nodup → ¬ Freeable ps live → freeAll ps live = .error .badFree
  | [], live, _, h => absurd ⟨by simp, by simp⟩ h
  | p :: ps, live, hl, h => by
    by_cases h0 : p = 0
    · subst h0
      simp only [freeAll, hfree, if_true, pure_eq_ok, ok_bind]
      refine freeAll_bad ps live hl fun hf => h ⟨by simpa using hf.1, fun q hq hq0 => ?_⟩
      rcases List.mem_cons.1 hq with rfl | hq
      · exact absurd rfl hq0
      · exact hf.2 q hq hq0
    · by_cases hm : p ∈ live
      · simp only [freeAll, hfree, if_neg h0, if_pos hm, pure_eq_ok, ok_bind]
        refine freeAll_bad ps (live.erase p) (hl.erase p) fun hf => h ⟨?_, fun q hq hq0 => ?_⟩
        · simp only [ne_eq, decide_not, List.filter_cons, h0, decide_false, Bool.not_false, if_true, List.nodup_cons]
          refine ⟨fun hp => ?_, by simpa using hf.1⟩
          have := hf.2 p (List.mem_filter.1 hp).1 h0
          exact ((List.Nodup.mem_erase_iff hl).1 this).1 rfl
        · rcases List.mem_cons.1 hq with rfl | hq
          · exact hm
          · exact List.mem_of_mem_erase (hf.2 q hq hq0)
      · simp only [freeAll, hfree, if_neg h0, if_neg hm]
        rfl

theorem freeable_perm {ps qs live : List Nat} (h : ps.Perm qs) : Freeable ps live ↔ Freeable qs live := by
  unfold Freeable
  rw [(h.filter _).nodup_iff]
  constructor <;> rintro ⟨h1, h2⟩ <;> refine ⟨h1, fun p hp => h2 p ?_⟩
  · exact h.mem_iff.2 hp
  · exact h.mem_iff.1 hp

theorem loop_eq {l : TG} {xs} (h : Rep 8 l xs) (hb : l.count * 8 < 2^64) : ∀ (n c : Nat) (live : List Nat), n ≤ xs.length →
    (Tglist.freeValuesLoop 8 { l with count := c } n live).map Prod.snd = freeAll ((xs.take n).map leVal).reverse live
  | 0, c, live, _ => rfl
  | n + 1, c, live, hn => by
    have hrd : rdN l.items (szt (n * 8)) 8 = .ok xs[n] := Tglist.get_spec h hb (i := n) (by omega)
    have htake : xs.take (n + 1) = xs.take n ++ [xs[n]] := (List.take_append_getElem (by omega)).symm
    rw [htake, List.map_append, List.reverse_append]
    simp only [Tglist.freeValuesLoop, hrd, ok_bind, List.map_cons, List.map_nil, List.reverse_singleton, List.singleton_append, freeAll]
    cases hfree live (leVal xs[n]) with
    | error e => rfl
    | ok l1 => simp only [ok_bind]; exact loop_eq h hb n n l1 (by omega)

theorem freeValues_eq {isz} {l : TG} {xs} (h : Rep isz l xs) (hb : l.count * isz < 2^64) (live : List Nat) :
    (do pure (← Tglist.free_values isz l live).2 : C (List Nat)) = freeAll (ptrs true isz xs).reverse live := by
  unfold Tglist.free_values ptrs
  by_cases h8 : isz = 8
  · subst h8
    rw [if_pos rfl, if_pos (by simp)]
    have := loop_eq h hb l.count l.count live (by rw [h.count]; exact Nat.le_refl _)
    rw [h.count, List.take_length] at this
    rw [← this, ← h.count]
    cases Tglist.freeValuesLoop 8 l l.count live <;> rfl
  · rw [if_neg h8, if_neg (by simp [h8])]
    rfl

theorem opt_eq {isz} {l : TG} {xs} (h : Rep isz l xs) (hb : l.count * isz < 2^64) (live : List Nat) (flags bit : Nat) :
    freeIf (flags &&& bit) isz l live =
      freeAll (ptrs (flags &&& bit != 0) isz xs).reverse live := by
  unfold freeIf
  by_cases hf : flags &&& bit = 0
  · rw [if_neg (by simpa using hf), hf]
    rfl
  · rw [if_pos hf, freeValues_eq h hb, show (flags &&& bit != 0) = true by simpa using hf]

theorem fini_eq {c : Cfg} {b : Bmap.BM} {S : List KV} (h : Bmap.Spec.View c b S) (hk : S.length * c.ksz < 2^64) (hv : S.length * c.vsz < 2^64)
    (ka va flags : Nat) (live : List Nat) :
    fini c b ka va flags live = freeAll ((ptrs (flags &&& 1 != 0) c.ksz (S.map Prod.fst)).reverse ++
      ((ptrs (flags &&& 2 != 0) c.vsz (S.map Prod.snd)).reverse ++ [ka, va])) live := by
  have hkc : b.keys.count * c.ksz < 2^64 := by rw [h.keys.count]; simpa using hk
  have hvc : b.values.count * c.vsz < 2^64 := by rw [h.values.count]; simpa using hv
  unfold fini
  rw [opt_eq h.keys hkc live flags 1, freeAll_append]
  congr 1
  funext live
  rw [opt_eq h.values hvc live flags 2, freeAll_append]
  congr 1
  funext live
  simp only [freeAll]
  cases hfree live ka with
  | error e => rfl
  | ok l => simp only [ok_bind]; cases hfree l va <;> rfl

theorem ifini_eq {c : Cfg} {b : BMI} {S idxs vals} (h : View c b S idxs vals) (hk : S.length * c.ksz < 2^64) (hv : vals.length * c.vsz < 2^64)
    (ka xa va flags : Nat) (live : List Nat) :
    ifini c b ka xa va flags live = freeAll ((ptrs (flags &&& 1 != 0) c.ksz (S.map Prod.fst)).reverse ++
      ((ptrs (flags &&& 2 != 0) c.vsz vals).reverse ++ [ka, xa, va])) live := by
  have hkc : b.keys.count * c.ksz < 2^64 := by rw [h.kcount]; exact hk
  have hvc : b.values.items.count * c.vsz < 2^64 := by rw [h.items.count]; exact hv
  unfold ifini
  rw [opt_eq h.keys hkc live flags 1, freeAll_append]
  congr 1
  funext live
  rw [opt_eq h.items hvc live flags 2, freeAll_append]
  congr 1
  funext live
  simp only [freeAll]
  cases hfree live ka with
  | error e => rfl
  | ok l =>
    simp only [ok_bind]
    cases hfree l xa with
    | error e => rfl
    | ok l => simp only [ok_bind]; cases hfree l va <;> rfl

/-! ### Churn -/

theorem churn_step {c : Cfg} (hc : CfgOk c) {k : List Byte} (hkl : k.length = c.ksz) (f : Nat → Byte) {v : List Byte} {b : BMI}
    {vals : List (List Byte)} (h : View c b [] [] vals) (hvl : v.length = c.vsz) (hk : 6 * c.ksz < 2^64)
    (hv : (2 * vals.length + 4) * c.vsz < 2^64) (hlt : vals.length < 2^32) :
    ∃ b1 b2, insert c (some f) (some f) (some f) b k v = .ok (b1, some 0) ∧ find c b1 k = .ok (some 0) ∧ delete c b1 0 = .ok b2 ∧
      View c b1 [(k, v)] [vals.length] (vals ++ [v]) ∧ View c b2 [] [] (vals ++ [v]) := by
  have hn := nocheck_spec hc h (by rw [List.length_nil]; exact mul_lt_of hk (by omega)) hv hlt
    (some f) (some f) (some f) k v hkl hvl (fun e he => by cases he)
  rw [if_neg (fun h => by cases h.1), if_neg (fun h => by rcases h with h | h <;> cases h.1)] at hn
  obtain ⟨b1, p, r1, r2, r3, _⟩ := hn
  rw [List.length_nil] at r1
  obtain rfl : p = 0 := by omega
  simp only [List.take_nil, List.drop_nil, List.nil_append] at r3
  have hf : find c b k = .ok none := by
    rcases find_spec hc h (by rw [h.kcount, List.length_nil, Nat.zero_mul]; omega) k with ⟨i, hi, _⟩ | ⟨f1, _⟩
    · rw [List.length_nil] at hi; omega
    · exact f1
  have h1 : ([(k, v)] : List KV).length * c.ksz < 2^64 := mul_lt_of hk (by rw [List.length_singleton]; omega)
  have hf1 : find c b1 k = .ok (some 0) := by
    rcases find_spec hc r3 (by rw [r3.kcount]; exact h1) k with ⟨i, hi, f1, _⟩ | ⟨_, f2, _⟩
    · rw [List.length_singleton] at hi
      obtain rfl : i = 0 := by omega
      exact f1
    · exact absurd (hc.cmp.refl k) (f2 (k, v) (List.mem_singleton.2 rfl))
  obtain ⟨b2, d1, d2, _⟩ := delete_view hc r3 h1 (i := 0) (by rw [List.length_singleton]; omega)
  refine ⟨b1, b2, ?_, hf1, d1, r3, d2⟩
  unfold insert
  rw [hf, ok_bind]
  simp only
  rw [r2]
  rfl

theorem churn_spec {c : Cfg} (hc : CfgOk c) {k : List Byte} (hkl : k.length = c.ksz) (f : Nat → Byte) (vs : List (List Byte)) :
    ∀ b vals, View c b [] [] vals → (∀ v ∈ vs, v.length = c.vsz) → 6 * c.ksz < 2^64 →
    (2 * (vals.length + vs.length) + 4) * c.vsz < 2^64 → vals.length + vs.length ≤ 2^32 →
    ∃ b' rs, run c b (churn k f vs) = .ok (b', rs) ∧ View c b' [] [] (vals ++ vs) := by
  induction vs with
  | nil =>
    intro b vals h _ _ _ _
    exact ⟨b, [], rfl, by rw [List.append_nil]; exact h⟩
  | cons v vs ih =>
    intro b vals h hvs hk hv hlt
    rw [List.length_cons] at hv hlt
    obtain ⟨b1, b2, r1, r2, r3, _, r5⟩ := churn_step hc hkl f h (hvs v List.mem_cons_self) hk (mul_lt_of hv (by omega)) (by omega)
    obtain ⟨b', rs, e1, e2⟩ := ih b2 (vals ++ [v]) r5 (fun w hw => hvs w (List.mem_cons_of_mem _ hw)) hk
      (mul_lt_of hv (by rw [List.length_append, List.length_singleton]; omega))
      (by rw [List.length_append, List.length_singleton]; omega)
    refine ⟨b', .idx (some 0) :: .bool true :: rs, ?_, by rw [List.append_assoc] at e2; exact e2⟩
    have s1 : step c b (.insert k v (some f) (some f) (some f)) = .ok (b1, .idx (some 0)) := by
      rw [step, r1]; rfl
    have s2 : step c b1 (.del k) = .ok (b2, .bool true) := by
      rw [step, r2, ok_bind]
      simp only
      rw [r3]; rfl
    rw [churn, run, s1, ok_bind]
    simp only
    rw [run, s2, ok_bind]
    simp only
    rw [e1]
    rfl

end Ulz.Ibmap

import Verif.Proofs.Ibmap
import Verif.Props.Bmap
/-! Properties C125 to C127: bmap with indexed values (`BMAP_USE_TGILIST`), and the destruction of a bmap. -/
namespace Ulz.Props
open Ulz.Ibmap Ulz.Ibmap.Spec
open Ulz.Bmap (Cfg)
open Ulz.Bmap.Spec (CfgOk lookup upd Map empty)
open Ulz.Sblist (mul_lt_of)

/-- C125: starting from an empty map compiled with `BMAP_USE_TGILIST`, any sequence of at most 2^32 insertions, lookups and
    deletions, with any pattern of allocation failures, runs without touching foreign memory and gives the results of the same
    operations on a mathematical map; at the end the map object lists exactly the entries of that map, in strictly increasing key
    order. -/
theorem ibmap_is_map (c : Cfg) (hc : CfgOk c) (ops : List Op) (hn : ops.length ≤ 2^32) (hk : (2 * ops.length + 4) * c.ksz < 2^64)
    (hv : (2 * ops.length + 4) * c.vsz < 2^64) (hop : ∀ op ∈ ops, OpOk c op) :
    ∃ b rs M, ∃ S : List (List Byte × List Byte), run c init ops = .ok (b, rs) ∧ Steps c.cmp empty ops M rs ∧
      b.keys.count = S.length ∧
      (∀ i (h : i < S.length), getkey c b i = .ok S[i].1 ∧ getval c b i = .ok S[i].2) ∧
      S.Pairwise (fun x y => c.cmp x.1 y.1 < 0) ∧
      ∀ k v, M k = some v ↔ ∃ e ∈ S, c.cmp k e.1 = 0 ∧ e.2 = v := by
  obtain ⟨b, rs, S, idxs, vals, r1, r2, r3, r4, r5⟩ := run_spec hc ops init [] [] [] (init_view hc) (by simpa using hk) (by simpa using hv)
    (by simpa using hn) hop
  simp only [List.length_nil, Nat.zero_add] at r4 r5
  refine ⟨b, rs, _, S, r1, r2, r3.kcount, ?_, r3.sorted, fun k v => Bmap.lookup_some hc.cmp r3.sorted⟩
  intro i hi
  refine ⟨?_, getval_spec r3 (mul_lt_of hv (by omega)) hi⟩
  have := Tglist.get_spec r3.keys (mul_lt_of hk (by rw [r3.kcount]; omega)) (i := i) (by simpa using hi)
  simpa [getkey] using this

def ibmapDemo : List Op :=
  [.insert [5, 0] [1] (some fun _ => 0) (some fun _ => 0) (some fun _ => 0), .insert [3, 0] [2] none none none,
   .insert [5, 1] [3] none none none, .get [5, 9], .get [4, 0], .contains [3, 7], .del [3, 1], .contains [3, 0]]

example : (∀ op ∈ ibmapDemo, OpOk demoCfg op) := by simp [ibmapDemo, OpOk, demoCfg]

/-- The deleted value 2 is still stored. -/
example : run demoCfg init ibmapDemo =
    .ok (⟨⟨1, 4, [5, 0, 5, 0, 0, 0, 0, 0]⟩, ⟨⟨1, 4, [0, 0, 0, 0] ++ List.replicate 12 0⟩, ⟨2, 4, [3, 2, 0, 0]⟩⟩⟩,
      [.idx (some 0), .idx (some 0), .idx (some 1), .item (some [3]), .item none, .bool true, .bool true, .bool false]) := by
  decide +kernel

/-- C125: inserting a key that is not in the map, exact outcome for every allocator behaviour: if the key array must grow and
    cannot, both insertion functions return -1 and the object is untouched; if the array of values or the index array must grow
    and cannot, the entries are unchanged and `bmap_insert_nocheck` returns -1, but `bmap_insert` returns the index the entry
    would have had; otherwise both insert and return the index. -/
theorem ibmap_insert_outcomes (c : Cfg) (hc : CfgOk c) (b : BMI) (S : List (List Byte × List Byte)) (idxs : List Nat)
    (vals : List (List Byte)) (h : View c b S idxs vals) (hlt : vals.length < 2^32)
    (hk : (2 * S.length + 4) * c.ksz < 2^64) (hv : (2 * vals.length + 4) * c.vsz < 2^64) (a1 a2 a3 : Alloc)
    (k v : List Byte) (hkl : k.length = c.ksz) (hvl : v.length = c.vsz) (hnew : ∀ e ∈ S, c.cmp k e.1 ≠ 0) :
    if a1 = none ∧ b.keys.count = b.keys.capa then
      (∃ ss, insert_nocheck c a1 a2 a3 b k v = .ok (b, none, ss)) ∧ Ibmap.insert c a1 a2 a3 b k v = .ok (b, none)
    else if (a3 = none ∧ b.values.items.count = b.values.items.capa) ∨ (a2 = none ∧ b.values.index.count = b.values.index.capa) then
      ∃ b' p, (∃ ss, insert_nocheck c a1 a2 a3 b k v = .ok (b', none, ss)) ∧
        Ibmap.insert c a1 a2 a3 b k v = .ok (b', some p) ∧ p ≤ S.length ∧ View c b' S idxs vals
    else
      ∃ b' p idxs', (∃ ss, insert_nocheck c a1 a2 a3 b k v = .ok (b', some p, ss)) ∧
        Ibmap.insert c a1 a2 a3 b k v = .ok (b', some p) ∧ p ≤ S.length ∧
        View c b' (S.take p ++ (k, v) :: S.drop p) idxs' (vals ++ [v]) := by
  have hi : ∀ b' r ss, insert_nocheck c a1 a2 a3 b k v = .ok (b', r, ss) → Ibmap.insert c a1 a2 a3 b k v = .ok (b', ss) := by
    intro b' r ss e
    unfold Ibmap.insert
    rcases find_spec hc h (mul_lt_of hk (by rw [h.kcount]; omega)) k with ⟨i, hi, _, f2, _⟩ | ⟨f1, _, _⟩
    · exact absurd f2 (hnew _ (List.getElem_mem _))
    · rw [f1]
      simp only [ok_bind, e]
      rfl
  have hn := nocheck_spec hc h hk hv hlt a1 a2 a3 k v hkl hvl hnew
  split
  · rename_i hh
    rw [if_pos hh] at hn
    exact ⟨⟨_, hn⟩, hi _ _ _ hn⟩
  · rename_i hh
    rw [if_neg hh] at hn
    split
    · rename_i hh2
      rw [if_pos hh2] at hn
      obtain ⟨b', p, r1, r2, r3⟩ := hn
      exact ⟨b', p, ⟨_, r2⟩, hi _ _ _ r2, r1, r3⟩
    · rename_i hh2
      rw [if_neg hh2] at hn
      obtain ⟨b', p, r1, r2, r3, _⟩ := hn
      exact ⟨b', p, _, ⟨_, r2⟩, hi _ _ _ r2, r1, r3⟩

/-- A fresh map whose index array is refused memory: nothing is stored, yet the result is index 0. -/
example : ∃ b, Ibmap.insert demoCfg (some fun _ => 0) none (some fun _ => 0) init [5, 0] [1] = .ok (b, some 0) ∧ View demoCfg b [] [] [] := by
  have := ibmap_insert_outcomes demoCfg demoCfg_ok init [] [] [] (init_view demoCfg_ok) (by decide) (by decide) (by decide)
    (some fun _ => 0) none (some fun _ => 0) [5, 0] [1] rfl rfl (by simp)
  rw [if_neg (by decide), if_pos (by decide)] at this
  obtain ⟨b, p, _, h2, h3, h4⟩ := this
  simp only [List.length_nil] at h3
  obtain rfl : p = 0 := by omega
  exact ⟨b, h2, h4⟩

/-- C126: values are never reclaimed: after inserting and deleting one key `n` times (n ≤ 2^32) the map is empty but its array of
    values holds all `n` values. -/
theorem ibmap_never_reuses (c : Cfg) (hc : CfgOk c) (k : List Byte) (hkl : k.length = c.ksz) (f : Nat → Byte) (vs : List (List Byte))
    (hvs : ∀ v ∈ vs, v.length = c.vsz) (hk : 6 * c.ksz < 2^64) (hv : (2 * vs.length + 4) * c.vsz < 2^64) (hlt : vs.length ≤ 2^32) :
    ∃ b rs, run c init (churn k f vs) = .ok (b, rs) ∧ b.keys.count = 0 ∧ b.values.items.count = vs.length ∧
      vs.length * c.vsz ≤ b.values.items.items.length := by
  obtain ⟨b, rs, h1, h2⟩ := churn_spec hc hkl f vs init [] (init_view hc) hvs hk (by simpa using hv) (by simpa using hlt)
  rw [List.nil_append] at h2
  refine ⟨b, rs, h1, h2.kcount, h2.items.count, ?_⟩
  obtain ⟨slack, e, _⟩ := h2.items.buf
  rw [e, List.length_append]
  have hfl : ∀ xs : List (List Byte), (∀ x ∈ xs, x.length = c.vsz) → xs.flatten.length = xs.length * c.vsz := by
    intro xs
    induction xs with
    | nil => intro _; simp
    | cons x xs ih =>
      intro h
      rw [List.flatten_cons, List.length_append, ih (fun y hy => h y (by simp [hy])), h x (by simp), List.length_cons, Nat.succ_mul]
      omega
  rw [hfl vs hvs]
  omega

example : run demoCfg init (churn [5, 0] (fun _ => 0) [[1], [2], [3]]) =
    .ok (⟨⟨0, 4, [5, 0, 0, 0, 0, 0, 0, 0]⟩, ⟨⟨0, 4, [2, 0, 0, 0] ++ List.replicate 12 0⟩, ⟨3, 4, [1, 2, 3, 0]⟩⟩⟩,
      [.idx (some 0), .bool true, .idx (some 0), .bool true, .idx (some 0), .bool true]) := by decide +kernel

/-- C126: the limit of C125 is exact: after 2^32 insertions, each followed by a deletion, the map is empty, the next insertion
    succeeds, but the key has the value of the very first insertion. -/
theorem ibmap_index_wraps (c : Cfg) (hc : CfgOk c) (k : List Byte) (hkl : k.length = c.ksz) (f : Nat → Byte) (vs : List (List Byte))
    (hvs : ∀ v ∈ vs, v.length = c.vsz) (hk : 6 * c.ksz < 2^64) (hv : (2 * vs.length + 4) * c.vsz < 2^64) (hlen : vs.length = 2^32)
    (v : List Byte) (hvl : v.length = c.vsz) :
    ∃ b rs b', run c init (churn k f vs) = .ok (b, rs) ∧ Ibmap.insert c (some f) (some f) (some f) b k v = .ok (b', some 0) ∧
      get c b' k = .ok (some (vs[0]'(by rw [hlen]; decide))) := by
  obtain ⟨b, rs, h1, h⟩ := churn_spec hc hkl f vs init [] (init_view hc) hvs hk (by simpa using hv) (by rw [List.length_nil]; omega)
  rw [List.nil_append] at h
  have hf : find c b k = .ok none := by
    rcases find_spec hc h (by rw [h.kcount, List.length_nil, Nat.zero_mul]; omega) k with ⟨i, hi, _⟩ | ⟨f1, _⟩
    · rw [List.length_nil] at hi; omega
    · exact f1
  have hkc : b.keys.count = 0 := h.kcount
  have hic : b.values.index.count = 0 := h.icount
  rcases Tglist.insert_sorted_spec h.keys (by rw [hkc]; exact mul_lt_of hk (by omega)) (some f) k hkl c.cmp with
    ⟨ks, p, k1, k2, k3, _⟩ | ⟨k1, _⟩
  · rw [List.map_nil, List.length_nil] at k2
    obtain rfl : p = 0 := by omega
    simp only [List.map_nil, List.take_nil, List.drop_nil, List.nil_append] at k3
    rcases Tglist.add_spec h.items (by rw [h.items.count]; exact hv) (some f) v hvl with ⟨t, t1, t2, _⟩ | ⟨t1, _⟩
    · have htc : t.count = vs.length + 1 := by rw [t2.count]; simp
      rcases Tglist.insert_spec h.index (by rw [hic]; decide) (some f) (Tglist.leBytes W vs.length) (Tglist.leBytes_length _ _)
        (pos := 0) (Nat.zero_le _) with ⟨ix, x1, x2, _⟩ | ⟨x1, _⟩
      · simp only [List.map_nil, List.take_nil, List.drop_nil, List.nil_append] at x2
        have hin : Ibmap.insert c (some f) (some f) (some f) b k v = .ok (⟨ks, ⟨ix, t⟩⟩, some 0) := by
          unfold Ibmap.insert
          rw [hf, ok_bind]
          simp only
          unfold insert_nocheck
          rw [k1, ok_bind]
          simp only
          unfold Tglist.iinsert
          rw [t1, ok_bind]
          simp only
          rw [if_neg (by decide), htc, Nat.add_sub_cancel, x1]
          rfl
        refine ⟨b, rs, _, h1, hin, ?_⟩
        have hixc : ix.count = 1 := by rw [x2.count]; rfl
        have hks : ks.count = 1 := by rw [k3.count]; rfl
        have hv1 : Bmap.Spec.View c ⟨ks, ⟨1, 1, v⟩⟩ [(k, v)] :=
          ⟨k3, ⟨hc.vsz, rfl, by intro x hx; rw [List.mem_singleton.1 hx]; exact hvl, Nat.le_refl _, [], by simp, by simp⟩, by simp⟩
        have hfd : find c ⟨ks, ⟨ix, t⟩⟩ k = .ok (some 0) := by
          rcases Bmap.find_spec hc hv1 (by show ks.count * _ < _; rw [hks]; exact mul_lt_of hk (by omega)) k with ⟨i, hi, f1, _⟩ | ⟨_, f2, _⟩
          · rw [List.length_singleton] at hi
            obtain rfl : i = 0 := by omega
            exact f1
          · exact absurd (hc.cmp.refl k) (f2 (k, v) (List.mem_singleton.2 rfl))
        unfold Ibmap.get
        rw [hfd, ok_bind]
        simp only
        unfold getval Tglist.iget Tglist.iidx
        rw [Tglist.get_spec x2 (by rw [hixc]; decide) (i := 0) (by rw [List.length_singleton]; omega)]
        simp only [ok_bind, pure_eq_ok, List.getElem_cons_zero]
        rw [Tglist.leVal_leBytes_mod, pow_w, show vs.length % 2^32 = 0 by rw [hlen, Nat.mod_self]]
        rw [Tglist.get_spec t2 (mul_lt_of hv (by omega)) (i := 0) (by rw [List.length_append]; omega)]
        simp only [ok_bind]
        rw [List.getElem_append_left]
      · cases x1
    · cases t1
  · cases k1

/-- The hypotheses on sizes hold for two-byte keys and one-byte values. -/
example : 6 * demoCfg.ksz < 2^64 ∧ (2 * 2^32 + 4) * demoCfg.vsz < 2^64 := by decide

/-- C127: `bmap_fini(b, flags)`, exact for every map, heap and flags. With `F` the keys if bit 0 is set and keys have the size of a
    pointer, the values if bit 1 is set and values have the size of a pointer, and the two arrays: if the pointers in `F` are
    distinct and allocated, exactly they are freed; otherwise there is an invalid or double free. -/
theorem bmap_fini_exact (c : Cfg) (b : Bmap.BM) (S : List (List Byte × List Byte)) (h : Bmap.Spec.View c b S)
    (hk : S.length * c.ksz < 2^64) (hv : S.length * c.vsz < 2^64) (ka va flags : Nat) (live : List Nat) (hl : live.Nodup)
    (F : List Nat) (hF : F = ptrs (flags &&& 1 != 0) c.ksz (S.map Prod.fst) ++ ptrs (flags &&& 2 != 0) c.vsz (S.map Prod.snd) ++ [ka, va]) :
    (Freeable F live → ∃ live', fini c b ka va flags live = .ok live' ∧ ∀ a, a ∈ live' ↔ a ∈ live ∧ (a = 0 ∨ a ∉ F)) ∧
    (¬ Freeable F live → fini c b ka va flags live = .error .badFree) := by
  rw [fini_eq h hk hv]
  generalize hG : (ptrs (flags &&& 1 != 0) c.ksz (S.map Prod.fst)).reverse ++
    ((ptrs (flags &&& 2 != 0) c.vsz (S.map Prod.snd)).reverse ++ [ka, va]) = G
  have hp : F.Perm G := by
    rw [hF, ← hG, List.append_assoc]
    exact (List.reverse_perm _).symm.append ((List.reverse_perm _).symm.append (List.Perm.refl _))
  refine ⟨fun hf => ?_, fun hf => freeAll_bad _ _ hl (fun h => hf ((freeable_perm hp).2 h))⟩
  obtain ⟨live', h1, _, h2⟩ := freeAll_good _ _ hl ((freeable_perm hp).1 hf)
  exact ⟨live', h1, fun a => by rw [h2, hp.mem_iff]⟩

/-- Pointers as keys and as values. -/
def ptrCfg : Cfg := ⟨8, 8, fun a b => Tglist.leVal a - Tglist.leVal b, linSearch⟩

theorem ptrCfg_ok : CfgOk ptrCfg := by
  refine ⟨by decide, by decide, ⟨?_, ?_, ?_⟩, linSearch_ok⟩ <;> intros <;> simp only [ptrCfg] at * <;> omega

example : fini ptrCfg ⟨⟨1, 1, Tglist.leBytes 8 64⟩, ⟨1, 1, Tglist.leBytes 8 72⟩⟩ 80 88 2 [64, 72, 80, 88] = .ok [64] ∧
    fini ptrCfg ⟨⟨1, 1, Tglist.leBytes 8 64⟩, ⟨1, 1, Tglist.leBytes 8 72⟩⟩ 80 88 3 [64, 72, 80, 88] = .ok [] ∧
    Freeable (ptrs (3 &&& 1 != 0) 8 [Tglist.leBytes 8 64] ++ ptrs (3 &&& 2 != 0) 8 [Tglist.leBytes 8 72] ++ [80, 88]) [64, 72, 80, 88] :=
  ⟨by decide +kernel, by decide +kernel, ⟨by decide +kernel, by decide +kernel⟩⟩

/-- C127: the same with `BMAP_USE_TGILIST`, except that all values the map stores are freed, also those of deleted entries, and
    that there are three arrays. -/
theorem ibmap_fini_exact (c : Cfg) (b : BMI) (S : List (List Byte × List Byte)) (idxs : List Nat) (vals : List (List Byte))
    (h : View c b S idxs vals) (hk : S.length * c.ksz < 2^64) (hv : vals.length * c.vsz < 2^64) (ka xa va flags : Nat)
    (live : List Nat) (hl : live.Nodup) (F : List Nat)
    (hF : F = ptrs (flags &&& 1 != 0) c.ksz (S.map Prod.fst) ++ ptrs (flags &&& 2 != 0) c.vsz vals ++ [ka, xa, va]) :
    (Freeable F live → ∃ live', ifini c b ka xa va flags live = .ok live' ∧ ∀ a, a ∈ live' ↔ a ∈ live ∧ (a = 0 ∨ a ∉ F)) ∧
    (¬ Freeable F live → ifini c b ka xa va flags live = .error .badFree) := by
  rw [ifini_eq h hk hv]
  generalize hG : (ptrs (flags &&& 1 != 0) c.ksz (S.map Prod.fst)).reverse ++
    ((ptrs (flags &&& 2 != 0) c.vsz vals).reverse ++ [ka, xa, va]) = G
  have hp : F.Perm G := by
    rw [hF, ← hG, List.append_assoc]
    exact (List.reverse_perm _).symm.append ((List.reverse_perm _).symm.append (List.Perm.refl _))
  refine ⟨fun hf => ?_, fun hf => freeAll_bad _ _ hl (fun h => hf ((freeable_perm hp).2 h))⟩
  obtain ⟨live', h1, _, h2⟩ := freeAll_good _ _ hl ((freeable_perm hp).1 hf)
  exact ⟨live', h1, fun a => by rw [h2, hp.mem_iff]⟩

/-- C127: with `BMAP_USE_TGILIST`, deleting an entry and freeing its value, as one does with the default list, makes a later
    `bmap_fini` with flag 2 free it again: for every map, new key `k` and pointer `v`, after the insertion and the deletion of `k`,
    if `v` is not allocated any more then `bmap_fini` has undefined behaviour. -/
theorem ibmap_fini_double_free (c : Cfg) (hc : CfgOk c) (hc8 : c.vsz = 8) (b : BMI) (S : List (List Byte × List Byte)) (idxs : List Nat)
    (vals : List (List Byte)) (h : View c b S idxs vals) (hlt : vals.length < 2^32) (hk : (2 * S.length + 4) * c.ksz < 2^64)
    (hv : (2 * vals.length + 4) * c.vsz < 2^64) (f : Nat → Byte) (k v : List Byte) (hkl : k.length = c.ksz) (hvl : v.length = 8)
    (hnew : ∀ e ∈ S, c.cmp k e.1 ≠ 0) (flags : Nat) (hfl : flags &&& 2 ≠ 0) (ka xa va : Nat) (live : List Nat) (hl : live.Nodup)
    (h0 : Tglist.leVal v ≠ 0) (hfreed : Tglist.leVal v ∉ live) :
    ∃ b' rs, run c b [.insert k v (some f) (some f) (some f), .del k] = .ok (b', rs) ∧
      ifini c b' ka xa va flags live = .error .badFree := by
  have hn := nocheck_spec hc h hk hv hlt (some f) (some f) (some f) k v hkl (by rw [hc8]; exact hvl) hnew
  rw [if_neg (fun h => by cases h.1), if_neg (fun h => by rcases h with h | h <;> cases h.1)] at hn
  obtain ⟨b1, p, r1, r2, r3, _⟩ := hn
  have hf : find c b k = .ok none := by
    rcases find_spec hc h (mul_lt_of hk (by rw [h.kcount]; omega)) k with ⟨i, hi, _, f2, _⟩ | ⟨f1, _⟩
    · exact absurd f2 (hnew _ (List.getElem_mem _))
    · exact f1
  have hlen : (S.take p ++ (k, v) :: S.drop p).length = S.length + 1 := by simp; omega
  have hk1 : (S.take p ++ (k, v) :: S.drop p).length * c.ksz < 2^64 := by rw [hlen]; exact mul_lt_of hk (by omega)
  rcases find_spec hc r3 (by rw [r3.kcount]; exact hk1) k with ⟨i, hi, f1, _⟩ | ⟨_, f2, _⟩
  · obtain ⟨b2, d1, d2, _⟩ := delete_view hc r3 hk1 hi
    have s1 : step c b (.insert k v (some f) (some f) (some f)) = .ok (b1, .idx (some p)) := by
      rw [step, Ibmap.insert, hf, ok_bind]
      simp only
      rw [r2]; rfl
    have s2 : step c b1 (.del k) = .ok (b2, .bool true) := by
      rw [step, f1, ok_bind]
      simp only
      rw [d1]; rfl
    refine ⟨b2, [.idx (some p), .bool true], ?_, ?_⟩
    · rw [run, s1, ok_bind]
      simp only
      rw [run, s2]
      rfl
    · refine (ibmap_fini_exact c b2 _ _ _ d2 ?_ (mul_lt_of hv (by simp; omega)) ka xa va flags live hl _ rfl).2 fun hh => ?_
      · rw [List.length_eraseIdx, if_pos hi, hlen]
        exact mul_lt_of hk (by omega)
      · refine hfreed (hh.2 _ ?_ h0)
        refine List.mem_append_left _ (List.mem_append_right _ ?_)
        unfold ptrs
        rw [if_pos ⟨by simpa using hfl, hc8⟩]
        exact List.mem_map_of_mem (by simp)
  · exact absurd (hc.cmp.refl k) (f2 (k, v) (by simp))

/-- The value 4096, freed after its entry was deleted. -/
example : ∃ b' rs, run ptrCfg init [.insert (Tglist.leBytes 8 8) (Tglist.leBytes 8 4096) (some fun _ => 0) (some fun _ => 0) (some fun _ => 0),
      .del (Tglist.leBytes 8 8)] = .ok (b', rs) ∧ ifini ptrCfg b' 64 72 80 2 [64, 72, 80] = .error .badFree :=
  ibmap_fini_double_free ptrCfg ptrCfg_ok rfl init [] [] [] (init_view ptrCfg_ok) (by decide) (by decide) (by decide) (fun _ => 0)
    (Tglist.leBytes 8 8) (Tglist.leBytes 8 4096) rfl rfl (by simp) 2 (by decide) 64 72 80 [64, 72, 80] (by decide) (by decide) (by decide)

end Ulz.Props

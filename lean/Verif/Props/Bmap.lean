import Verif.Proofs.Hbmap
/-! C38-C41: the sorted map `bmap` and the hash map `hbmap`. -/
set_option linter.unusedVariables false
namespace Ulz.Props
open Ulz.Bmap Ulz.Bmap.Spec
open Ulz.Sblist.Spec (TotalPreorder)
open Ulz.Sblist (mul_lt_of)

/-- C38. Starting from an empty map, any sequence of insertions, lookups and deletions, with any pattern
    of allocation failures, runs without touching foreign memory and gives the results of the same
    operations on a mathematical map; at the end the map object lists exactly the entries of that map,
    keys and values aligned, in strictly increasing key order. -/
theorem bmap_is_map (c : Cfg) (hc : CfgOk c) (ops : List Op) (hk : (2 * ops.length + 4) * c.ksz < 2^64)
    (hv : (2 * ops.length + 4) * c.vsz < 2^64) (hop : ∀ op ∈ ops, OpOk c op) :
    ∃ b rs M, ∃ S : List (List Byte × List Byte), run c init ops = .ok (b, rs) ∧ Steps c.cmp empty ops M rs ∧
      b.keys.count = S.length ∧ b.values.count = S.length ∧
      (∀ i (h : i < S.length), getkey c b i = .ok S[i].1 ∧ getval c b i = .ok S[i].2) ∧
      S.Pairwise (fun x y => c.cmp x.1 y.1 < 0) ∧
      ∀ k v, M k = some v ↔ ∃ e ∈ S, c.cmp k e.1 = 0 ∧ e.2 = v := by
  obtain ⟨b, rs, S, r1, r2, r3, r4⟩ := run_spec hc ops init [] (init_view hc) (by simpa using hk) (by simpa using hv) hop
  simp only [List.length_nil, Nat.zero_add] at r4
  have h1 : b.keys.count = S.length := by rw [r3.keys.count]; simp
  have h2 : b.values.count = S.length := by rw [r3.values.count]; simp
  refine ⟨b, rs, _, S, r1, r2, h1, h2, ?_, r3.sorted, fun k v => lookup_some hc.cmp r3.sorted⟩
  intro i hi
  constructor
  · have := Tglist.get_spec r3.keys (mul_lt_of hk (by omega)) (i := i) (by simpa using hi)
    simpa [getkey] using this
  · have := Tglist.get_spec r3.values (mul_lt_of hv (by omega)) (i := i) (by simpa using hi)
    simpa [getval] using this

/-- Linear search meets the contract of `bsearch`. -/
def linSearch (key : List Byte) (xs : List (List Byte)) (cmp : List Byte → List Byte → Int) : Option Nat :=
  xs.findIdx? fun x => cmp key x = 0

theorem linSearch_ok : BsearchOk linSearch := by
  intro key xs cmp _
  unfold linSearch
  split
  · rename_i i h
    obtain ⟨h1, h2, _⟩ := List.findIdx?_eq_some_iff_getElem.1 h
    exact ⟨h1, by simpa using h2⟩
  · rename_i h
    intro x hx
    simpa using List.findIdx?_eq_none_iff.1 h x hx

/-- Two-byte keys ordered by their first byte, one-byte values. -/
def demoCmp (a b : List Byte) : Int := (a.headD 0).toNat - (b.headD 0).toNat
def demoCfg : Cfg := ⟨2, 1, demoCmp, linSearch⟩

theorem demoCmp_ok : TotalPreorder demoCmp := by
  refine ⟨?_, ?_, ?_⟩ <;> intros <;> simp only [demoCmp] at * <;> omega

theorem demoCfg_ok : CfgOk demoCfg := ⟨by decide, by decide, demoCmp_ok, linSearch_ok⟩

def bmapDemo : List Op :=
  [.insert [5, 0] [1] (some fun _ => 0) (some fun _ => 0), .insert [3, 0] [2] none none,
   .insert [5, 1] [3] none none, .get [5, 9], .get [4, 0], .contains [3, 7], .del [3, 1], .contains [3, 0]]

example : (∀ op ∈ bmapDemo, OpOk demoCfg op) ∧ (2 * bmapDemo.length + 4) * demoCfg.ksz < 2^64 :=
  ⟨by simp [bmapDemo, OpOk, demoCfg], by decide⟩

example : run demoCfg init bmapDemo =
    .ok (⟨⟨1, 4, [5, 0, 5, 0, 0, 0, 0, 0]⟩, ⟨1, 4, [3, 3, 0, 0]⟩⟩,
      [.idx (some 0), .idx (some 0), .idx (some 1), .item (some [3]), .item none, .bool true, .bool true, .bool false]) := by
  decide +kernel

/-- C38, the returned index: an insertion that is not refused memory returns the index at which the map
    now holds the value under an equal key. -/
theorem bmap_insert_index (c : Cfg) (hc : CfgOk c) (b : BM) (S : List (List Byte × List Byte)) (h : View c b S)
    (hk : (2 * S.length + 4) * c.ksz < 2^64) (hv : (2 * S.length + 4) * c.vsz < 2^64) (f g : Nat → Byte)
    (k v : List Byte) (hkl : k.length = c.ksz) (hvl : v.length = c.vsz) :
    ∃ b' S' i, ∃ hi : i < S'.length, Bmap.insert c (some f) (some g) b k v = .ok (b', some i) ∧ View c b' S' ∧
      c.cmp k S'[i].1 = 0 ∧ S'[i].2 = v ∧ lookup c.cmp S' = upd c.cmp (lookup c.cmp S) k v := by
  have h1 : b.keys.count = S.length := by rw [h.keys.count]; simp
  rcases insert_spec hc h (by rw [h1]; exact hk) (by rw [h1]; exact hv) (some f) (some g) k v hkl hvl with
    ⟨b', S', i, hi, r1, r2, r3, r4, _, r5⟩ | ⟨_, r1, _⟩ | ⟨_, r1, _⟩
  · exact ⟨b', S', i, hi, r1, r2, r3, r4, r5⟩
  · cases r1
  · cases r1

example : View demoCfg ⟨⟨1, 4, [5, 0, 5, 0, 0, 0, 0, 0]⟩, ⟨1, 4, [3, 3, 0, 0]⟩⟩ [([5, 0], [3])] :=
  ⟨⟨by decide, rfl, by simp [demoCfg], by simp, [5, 0, 0, 0, 0, 0], rfl, rfl⟩,
   ⟨by decide, rfl, by simp [demoCfg], by simp, [3, 0, 0], rfl, rfl⟩, by simp⟩

/-- C39. Inserting a key that is not in the map (exact outcome for every allocator behaviour): if the key
    array must grow and cannot, both insertion functions return -1 and the object is untouched; if only
    the value array must grow and cannot, the entries are unchanged and `bmap_insert_nocheck` returns -1,
    but `bmap_insert` returns the index the entry would have had; otherwise both insert and return the
    index. -/
theorem bmap_insert_outcomes (c : Cfg) (hc : CfgOk c) (b : BM) (S : List (List Byte × List Byte)) (h : View c b S)
    (hk : (2 * S.length + 4) * c.ksz < 2^64) (hv : (2 * S.length + 4) * c.vsz < 2^64) (a1 a2 : Alloc)
    (k v : List Byte) (hkl : k.length = c.ksz) (hvl : v.length = c.vsz) (hnew : ∀ e ∈ S, c.cmp k e.1 ≠ 0) :
    if a1 = none ∧ b.keys.count = b.keys.capa then
      (∃ ss, insert_nocheck c a1 a2 b k v = .ok (b, none, ss)) ∧ Bmap.insert c a1 a2 b k v = .ok (b, none)
    else if a2 = none ∧ b.values.count = b.values.capa then
      ∃ b' p, (∃ ss, insert_nocheck c a1 a2 b k v = .ok (b', none, ss)) ∧
        Bmap.insert c a1 a2 b k v = .ok (b', some p) ∧ p ≤ S.length ∧ View c b' S
    else
      ∃ b' p, (∃ ss, insert_nocheck c a1 a2 b k v = .ok (b', some p, ss)) ∧
        Bmap.insert c a1 a2 b k v = .ok (b', some p) ∧ p ≤ S.length ∧
        View c b' (S.take p ++ (k, v) :: S.drop p) := by
  have h1 : b.keys.count = S.length := by rw [h.keys.count]; simp
  have hi : ∀ b' r ss, insert_nocheck c a1 a2 b k v = .ok (b', r, ss) → Bmap.insert c a1 a2 b k v = .ok (b', ss) := by
    intro b' r ss e
    unfold Bmap.insert
    rcases find_spec hc h (mul_lt_of hk (by omega)) k with ⟨i, hi, _, f2, _⟩ | ⟨f1, _, _⟩
    · exact absurd f2 (hnew _ (List.getElem_mem _))
    · rw [f1]
      simp only [ok_bind, e]
      rfl
  rcases nocheck_spec hc h (by rw [h1]; exact hk) (by rw [h1]; exact hv) a1 a2 k v hkl hvl hnew with
    ⟨b', p, n1, n2, r1, r2, r3, _⟩ | ⟨r1, r2, r3⟩ | ⟨b', p, n1, r0, rf, r1, r2, r3⟩
  · rw [if_neg n1, if_neg n2]
    exact ⟨b', p, ⟨_, r1⟩, hi _ _ _ r1, r2, r3⟩
  · rw [if_pos ⟨r1, r2⟩]
    exact ⟨⟨_, r3⟩, hi _ _ _ r3⟩
  · rw [if_neg n1, if_pos ⟨r0, rf⟩]
    exact ⟨b', p, ⟨_, r2⟩, hi _ _ _ r2, r1, r3⟩

/-- C39, overwriting an existing key needs no memory and cannot fail. -/
theorem bmap_overwrite_never_fails (c : Cfg) (hc : CfgOk c) (b : BM) (S : List (List Byte × List Byte)) (h : View c b S)
    (hk : (2 * S.length + 4) * c.ksz < 2^64) (hv : (2 * S.length + 4) * c.vsz < 2^64) (a1 a2 : Alloc)
    (k v : List Byte) (hkl : k.length = c.ksz) (hvl : v.length = c.vsz) (hold : ∃ e ∈ S, c.cmp k e.1 = 0) :
    ∃ b' S' i, ∃ hi : i < S'.length, Bmap.insert c a1 a2 b k v = .ok (b', some i) ∧ View c b' S' ∧
      S'[i].2 = v ∧ S'.length = S.length ∧ lookup c.cmp S' = upd c.cmp (lookup c.cmp S) k v := by
  have h1 : b.keys.count = S.length := by rw [h.keys.count]; simp
  have h2 : b.values.count = S.length := by rw [h.values.count]; simp
  obtain ⟨e, he, hce⟩ := hold
  unfold Bmap.insert
  rcases find_spec hc h (mul_lt_of hk (by omega)) k with ⟨i, hi, f1, f2, _⟩ | ⟨_, f2, _⟩
  · obtain ⟨vs, s1, s2, s3⟩ := set_view hc h (mul_lt_of hv (by omega)) hi v hvl
    rw [f1]
    simp only [ok_bind, s1]
    refine ⟨_, _, i, by simpa using hi, rfl, s2, by simp, by simp, ?_⟩
    rw [s3, upd_congr hc.cmp f2]
  · exact absurd hce (f2 e he)

/-- A fresh map whose value array is refused memory: nothing is stored, yet the result is index 0. -/
example : Bmap.insert demoCfg (some fun _ => 0) none init [5, 0] [1] =
    .ok (⟨⟨0, 4, [5, 0, 0, 0, 0, 0, 0, 0]⟩, ⟨0, 0, []⟩⟩, some 0) := by decide +kernel
example : insert_nocheck demoCfg (some fun _ => 0) none init [5, 0] [1] =
    .ok (⟨⟨0, 4, [5, 0, 0, 0, 0, 0, 0, 0]⟩, ⟨0, 0, []⟩⟩, none, some 0) := by decide +kernel
example : Bmap.insert demoCfg none none init [5, 0] [1] = .ok (init, none) := by decide +kernel

/-- C40. A fresh hbmap with any number of buckets from 1 to 2^32-1 and any hash that agrees on equal
    keys, under any sequence of insertions, lookups and deletions with any allocation failures, touches
    no foreign memory and gives the results of a mathematical map. At the end every key of that map is
    found at one iterator, which designates its value, and every other key is not found. -/
theorem hbmap_is_map (c : HCfg) (hc : HCfgOk c) (n : Nat) (h0 : 0 < n) (hn : n < 2^32) (ops : List Op)
    (h32 : ops.length < 2^32) (hk : (2 * ops.length + 4) * c.ksz < 2^64) (hv : (2 * ops.length + 4) * c.vsz < 2^64)
    (hop : ∀ op ∈ ops, OpOk c.toCfg op) :
    ∃ h rs M, hrun c (hinit n) ops = .ok (h, rs) ∧ HSteps c.cmp empty ops M rs ∧ h.length = n ∧
      ∀ k, hget c h k = .ok (M k) ∧
        match M k with
        | none => hfind c h k = .ok (-1#64)
        | some v => ∃ it k', hfind c h k = .ok it ∧ it ∈ allIters h ∧ hgetkey c h it = .ok k' ∧ c.cmp k k' = 0 ∧
            hgetval c h it = .ok v := by
  obtain ⟨h, rs, Ss, r1, r2, r3, r4, r5⟩ := hrun_spec hc ops (hinit n) (List.replicate n []) 0 (hinit_view hc h0 hn)
    (by intro S hS; rw [List.eq_of_mem_replicate hS]; simp) (by simpa using h32) (by simpa using hk)
    (by simpa using hv) hop
  simp only [Nat.zero_add] at r4
  have he : hlook c (List.replicate n []) = empty := by
    funext k
    simp [hlook, lookup, empty, List.getD_eq_getElem?_getD]
    rw [List.getElem?_replicate]
    split <;> simp
  rw [he] at r2
  refine ⟨h, rs, _, r1, r2, by simpa [hinit] using r5, ?_⟩
  intro k
  refine ⟨hget_spec hc r3 r4 h32 (mul_lt_of hk (by omega)) (mul_lt_of hv (by omega)) k, ?_⟩
  obtain ⟨hb, ⟨i, hi, f1, f2, f3⟩ | ⟨f1, f2, f3⟩⟩ := hfind_spec hc r3 r4 h32 (mul_lt_of hk (by omega)) k
  · rw [f3]
    have e := entry_spec r3 r4 h32 (mul_lt_of hk (by omega)) (mul_lt_of hv (by omega)) hb hi
    exact ⟨_, _, f1, e.1, e.2.1, f2, e.2.2⟩
  · rw [f3]
    exact f1

/-- C41. In every such map, `hbmap_foreach` terminates, visits each entry exactly once, ordered by bucket
    and position, and the visited entries are exactly the entries of the map. (`fuel` only bounds the
    number of model steps; every larger value gives the same result.) -/
theorem hbmap_foreach_visits_all (c : HCfg) (hc : HCfgOk c) (n : Nat) (h0 : 0 < n) (hn : n < 2^32) (ops : List Op)
    (h32 : ops.length < 2^32) (hk : (2 * ops.length + 4) * c.ksz < 2^64) (hv : (2 * ops.length + 4) * c.vsz < 2^64)
    (hop : ∀ op ∈ ops, OpOk c.toCfg op) :
    ∃ h rs M its, hrun c (hinit n) ops = .ok (h, rs) ∧ HSteps c.cmp empty ops M rs ∧
      (∀ fuel, its.length < fuel → foreach h fuel = .ok its) ∧
      its.Pairwise (fun a b => a.toNat < b.toNat) ∧
      (∀ it ∈ its, ∃ k v, hgetkey c h it = .ok k ∧ hgetval c h it = .ok v ∧ M k = some v) ∧
      (∀ k v, M k = some v → ∃ it ∈ its, (∃ k', hgetkey c h it = .ok k' ∧ c.cmp k k' = 0) ∧ hgetval c h it = .ok v) ∧
      (∀ it it' k k', it ∈ its → it' ∈ its → hgetkey c h it = .ok k → hgetkey c h it' = .ok k' → c.cmp k k' = 0 →
        it = it') := by
  obtain ⟨h, rs, Ss, r1, r2, r3, r4, r5⟩ := hrun_spec hc ops (hinit n) (List.replicate n []) 0 (hinit_view hc h0 hn)
    (by intro S hS; rw [List.eq_of_mem_replicate hS]; simp) (by simpa using h32) (by simpa using hk)
    (by simpa using hv) hop
  simp only [Nat.zero_add] at r4
  have he : hlook c (List.replicate n []) = empty := by
    funext k
    simp [hlook, lookup, empty, List.getD_eq_getElem?_getD]
    rw [List.getElem?_replicate]
    split <;> simp
  rw [he] at r2
  have hk0 : ops.length * c.ksz < 2^64 := mul_lt_of hk (by omega)
  have hv0 : ops.length * c.vsz < 2^64 := mul_lt_of hv (by omega)
  refine ⟨h, rs, _, allIters h, r1, r2, ?_, allIters_sorted r3 r4 h32, ?_, ?_, ?_⟩
  · intro fuel hf
    exact foreach_spec r3.pos r3.small (fun b => bsize_lt r3 r4 h32) fuel hf
  · intro it hit
    obtain ⟨b, hb, i, hi, rfl⟩ := mem_allIters r3 hit
    have e := entry_spec r3 r4 h32 hk0 hv0 hb hi
    exact ⟨_, _, e.2.1, e.2.2, hlook_entry hc r3 hb hi⟩
  · intro k v hkv
    obtain ⟨hb, ⟨i, hi, f1, f2, f3⟩ | ⟨f1, f2, f3⟩⟩ := hfind_spec hc r3 r4 h32 hk0 k
    · have e := entry_spec r3 r4 h32 hk0 hv0 hb hi
      rw [f3] at hkv
      cases hkv
      exact ⟨_, e.1, ⟨_, e.2.1, f2⟩, e.2.2⟩
    · rw [f3] at hkv; cases hkv
  · intro it it' k k' hit hit' hk1 hk2 hc0
    obtain ⟨b, hb, i, hi, rfl⟩ := mem_allIters r3 hit
    obtain ⟨b', hb', i', hi', rfl⟩ := mem_allIters r3 hit'
    have e := entry_spec r3 r4 h32 hk0 hv0 hb hi
    have e' := entry_spec r3 r4 h32 hk0 hv0 hb' hi'
    rw [e.2.1] at hk1
    rw [e'.2.1] at hk2
    cases hk1
    cases hk2
    exact entry_unique hc r3 hb hi hb' hi' hc0

/-- Hash = first byte; three buckets, one of which stays empty. -/
def demoHCfg : HCfg := { demoCfg with hash := fun k => BitVec.ofNat 32 (k.headD 0).toNat }

example : HCfgOk demoHCfg :=
  { demoCfg_ok with
    hash := by
      intro k k' h
      simp only [demoHCfg, demoCfg, demoCmp] at h ⊢
      congr 1
      omega }

def hbmapDemo : List Op :=
  [.insert [5, 0] [1] (some fun _ => 0) (some fun _ => 0), .insert [3, 0] [2] none none,
   .insert [3, 0] [2] (some fun _ => 0) (some fun _ => 0),
   .insert [5, 1] [3] none none, .get [5, 9], .get [4, 0], .contains [3, 7], .insert [8, 0] [7] none none, .del [3, 1],
   .contains [3, 0]]

example : (∀ op ∈ hbmapDemo, OpOk demoHCfg.toCfg op) := by simp [hbmapDemo, OpOk, demoHCfg, demoCfg]

example : (do
    let (h, rs) ← hrun demoHCfg (hinit 3) hbmapDemo
    let its ← foreach h 10
    pure (rs, its)) =
    (.ok ([.iter false, .iter true, .iter false, .iter false, .item (some [3]), .item none, .bool true, .iter false,
      .bool true, .bool false], [0x200000000#64, 0x200000001#64]) : C _) := by decide +kernel

end Ulz.Props

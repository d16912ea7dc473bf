import Verif.Proofs.Macroarg
import Verif.Props.Bmap
import Verif.Props.Ibmap
/-! C192: macros whose arguments have side effects. -/
set_option linter.unusedVariables false
namespace Ulz.Props
open Ulz.Macroarg
open Ulz.Tglist (TG)
open Ulz.Bmap (Cfg HCfg BM)
open Ulz.Bmap.Spec (CfgOk HCfgOk View lookup upd)
open Ulz.Multimap.Spec (Lists mult)
open Ulz.Sblist (mul_lt_of)

variable {σ : Type}

/-- C192. `bmap_insert(m, KEY, VAL)` where the key KEY gives first is in the map: KEY and VAL are evaluated once each, and the entry of that key
    gets the value. -/
theorem bmap_insert_present (c : Cfg) (hc : CfgOk c) (b : BM) (S : List (List Byte × List Byte)) (h : View c b S)
    (hk : (2 * b.keys.count + 4) * c.ksz < 2^64) (hv : (2 * b.keys.count + 4) * c.vsz < 2^64) (a1 a2 : Alloc) (key val : Ex σ (List Byte))
    (s s1 t : σ) (k1 v : List Byte) (hk1 : key s = .ok (k1, s1)) (hval : val s1 = .ok (v, t)) (hvl : v.length = c.vsz)
    (hin : ∃ e ∈ S, c.cmp k1 e.1 = 0) :
    ∃ b' i S', bmInsert c a1 a2 b key val s = .ok (b', some i, t) ∧ View c b' S' ∧ lookup c.cmp S' = upd c.cmp (lookup c.cmp S) k1 v := by
  have hcnt : b.values.count = b.keys.count := by rw [h.values.count, h.keys.count]; simp
  rcases Bmap.find_spec hc h (mul_lt_of hk (by omega)) k1 with ⟨i, hi, f1, f2, f3⟩ | ⟨f1, f2, f3⟩
  · obtain ⟨b', e1, e2⟩ := (bmInsert_any hc h hk hv a1 a2 key val s s1 k1 hk1).1 i hi f1 f2 v t hval hvl
    refine ⟨b', i, _, e1, e2, ?_⟩
    obtain ⟨_, _, _, e3⟩ := Bmap.set_view hc h (mul_lt_of hv (by omega)) hi v hvl
    rw [e3, Bmap.upd_congr hc.cmp f2]
  · obtain ⟨e, he, h0⟩ := hin
    exact absurd h0 (f2 e he)

/-- C192. `bmap_insert(m, KEY, VAL)` where the key KEY gives first (`k1`) is not in the map: KEY is evaluated again and what it gives then (`k2`) is
    inserted blindly, VAL is evaluated once. So afterwards `k1` is in the map exactly if `k2` is equal to it, and if `k2` was there
    already the map has two entries for it. If memory is refused the map is as before, KEY has been evaluated twice and VAL not at all. -/
theorem bmap_insert_absent (c : Cfg) (hc : CfgOk c) (b : BM) (S : List (List Byte × List Byte)) (h : View c b S)
    (hk : (2 * b.keys.count + 4) * c.ksz < 2^64) (hv : (2 * b.keys.count + 4) * c.vsz < 2^64) (a1 a2 : Alloc) (key val : Ex σ (List Byte))
    (s s1 s2 t : σ) (k1 k2 v : List Byte) (hk1 : key s = .ok (k1, s1)) (hk2 : key s1 = .ok (k2, s2)) (hval : val s2 = .ok (v, t))
    (hkl : k2.length = c.ksz) (hvl : v.length = c.vsz) (hno : ∀ e ∈ S, c.cmp k1 e.1 ≠ 0) :
    ∃ b' r s' S', bmInsert c a1 a2 b key val s = .ok (b', r, s') ∧ Lists c b' S' ∧
      ((S'.Perm ((k2, v) :: S) ∧ s' = t ∧ ((∃ e ∈ S', c.cmp k1 e.1 = 0) ↔ c.cmp k1 k2 = 0) ∧ mult c.cmp S' k2 = mult c.cmp S k2 + 1) ∨
       ((a1 = none ∨ a2 = none) ∧ S' = S ∧ s' = s2)) := by
  have hkc : b.keys.count = S.length := by rw [h.keys.count]; simp
  have hlist : ∀ {b' : BM} {S' : List (List Byte × List Byte)}, Multimap.Al c b' S' → S'.length ≤ S.length + 1 → Lists c b' S' := by
    intro b' S' ha hl
    have : b'.keys.count = S'.length := by rw [ha.keys.count]; simp
    exact Multimap.lists_of_al ha (mul_lt_of hk (by omega)) (mul_lt_of hv (by omega))
  rcases (bmInsert_any hc h hk hv a1 a2 key val s s1 k1 hk1).2 hno k2 s2 v t hk2 hkl hval hvl with ⟨b', p, e1, e2, e3, _⟩ | ⟨b', ss, e0, e1, e2⟩
  · have hp : (S.take p ++ (k2, v) :: S.drop p).Perm ((k2, v) :: S) := by
      have := (List.perm_middle (a := (k2, v)) (l₁ := S.take p) (l₂ := S.drop p))
      rwa [List.take_append_drop] at this
    refine ⟨b', some p, t, _, e1, hlist e3 (by simp; omega), .inl ⟨hp, rfl, ?_, ?_⟩⟩
    · constructor
      · rintro ⟨e, he, h0⟩
        rcases List.mem_cons.1 (hp.mem_iff.1 he) with rfl | he
        · exact h0
        · exact absurd h0 (hno e he)
      · intro h0
        exact ⟨(k2, v), hp.mem_iff.2 (List.mem_cons_self ..), h0⟩
    · rw [Multimap.mult_perm hp, Multimap.mult_cons, if_pos (hc.cmp.refl _)]
  · exact ⟨b', ss, s2, S, e1, hlist e2 (by omega), .inr ⟨e0, rfl, rfl⟩⟩

/-- `bmap_insert(m, keys[i++], "\1")` on a map with key 5, for the keys 3, 5: 3 is looked for, 5 is inserted a second time. -/
example : bmInsert demoCfg none none ⟨⟨1, 4, [5, 0, 9, 9, 9, 9, 9, 9]⟩, ⟨1, 4, [7, 9, 9, 9]⟩⟩ (next [[3, 0], [5, 0]]) (fun i => .ok ([1], i)) 0 =
    .ok (⟨⟨2, 4, [5, 0, 5, 0, 9, 9, 9, 9]⟩, ⟨2, 4, [1, 7, 9, 9]⟩⟩, some 0, 2) := by decide +kernel

/-- C192. The loop `while(i < n) bmap_insert(map, keys[i++], vals[j++])` over `n` different keys, starting with an empty map. If `n` is even, it
    inserts every second key only: `keys[1]`, `keys[3]`, …, with the values `vals[0]`, `vals[1]`, …; the others are not in the map. -/
theorem bmap_insert_loop_even (c : Cfg) (hc : CfgOk c) (f : Nat → Byte) (keys vals : List (List Byte)) (m : Nat)
    (hkl : ∀ k ∈ keys, k.length = c.ksz) (hvl : ∀ v ∈ vals, v.length = c.vsz)
    (hd : ∀ i j (hi : i < keys.length) (hj : j < keys.length), c.cmp keys[i] keys[j] = 0 → i = j)
    (hsk : (2 * keys.length + 4) * c.ksz < 2^64) (hsv : (2 * keys.length + 4) * c.vsz < 2^64) (hv : vals.length = keys.length)
    (hm : keys.length = 2 * m) :
    ∃ b, insertAll c f keys vals keys.length (m + 1) Bmap.init (0, 0) = .ok (b, (2 * m, m)) ∧ b.keys.count = m ∧
      ∀ j (h1 : 2 * j + 1 < keys.length) (h2 : j < vals.length), Bmap.get c b keys[2 * j + 1] = .ok (some vals[j]) ∧ Bmap.get c b keys[2 * j] = .ok none := by
  have h0 : Inv c keys vals 0 Bmap.init [] := ⟨Bmap.init_view hc, rfl, by simp, fun j _ _ h => by omega⟩
  have := insertAll_run hc f keys vals hkl hvl hd hsk hsv (by omega) m 0 (m + 1) Bmap.init [] (by omega) (by omega) (by omega) h0
  rw [Nat.zero_add, if_pos hm] at this
  obtain ⟨b, S, e, hI⟩ := this
  have hkc : b.keys.count = S.length := by rw [hI.view.keys.count]; simp
  have hcnt : b.values.count = S.length := by rw [hI.view.values.count]; simp
  have hl := hI.len
  refine ⟨b, e, by omega, fun j h1 h2 => ?_⟩
  have hg : ∀ k, Bmap.get c b k = .ok (lookup c.cmp S k) := fun k =>
    Bmap.get_spec hc hI.view (mul_lt_of hsk (by omega)) (mul_lt_of hsv (by omega)) k
  rw [hg, hg]
  constructor
  · have hmem := hI.sup j h1 h2 (by omega)
    rw [(Bmap.lookup_some hc.cmp hI.view.sorted).2 ⟨_, hmem, hc.cmp.refl _, rfl⟩]
  · rw [Bmap.lookup_none.2]
    intro e he h0
    obtain ⟨i, g1, g2, g3, rfl⟩ := hI.sub e he
    have := hd _ _ (by omega) g1 h0
    omega

/-- C192. If `n` is odd, the loop reads behind the array of keys. -/
theorem bmap_insert_loop_odd (c : Cfg) (hc : CfgOk c) (f : Nat → Byte) (keys vals : List (List Byte)) (m : Nat)
    (hkl : ∀ k ∈ keys, k.length = c.ksz) (hvl : ∀ v ∈ vals, v.length = c.vsz)
    (hd : ∀ i j (hi : i < keys.length) (hj : j < keys.length), c.cmp keys[i] keys[j] = 0 → i = j)
    (hsk : (2 * keys.length + 4) * c.ksz < 2^64) (hsv : (2 * keys.length + 4) * c.vsz < 2^64) (hv : vals.length = keys.length)
    (hm : keys.length = 2 * m + 1) :
    insertAll c f keys vals keys.length (m + 1) Bmap.init (0, 0) = .error .oobRead := by
  have h0 : Inv c keys vals 0 Bmap.init [] := ⟨Bmap.init_view hc, rfl, by simp, fun j _ _ h => by omega⟩
  have := insertAll_run hc f keys vals hkl hvl hd hsk hsv (by omega) m 0 (m + 1) Bmap.init [] (by omega) (by omega) (by omega) h0
  rwa [Nat.zero_add, if_neg (by omega)] at this

example : (insertAll demoCfg (fun _ => 0) [[1, 0], [2, 0], [3, 0], [4, 0]] [[11], [12], [13], [14]] 4 3 Bmap.init (0, 0)).map (fun q => (q.1.keys.items, q.1.values.items)) =
      .ok ([2, 0, 4, 0, 0, 0, 0, 0], [11, 12, 0, 0]) ∧
    insertAll demoCfg (fun _ => 0) [[1, 0], [2, 0], [3, 0]] [[11], [12], [13]] 3 2 Bmap.init (0, 0) = .error .oobRead := by decide +kernel

/-- The keys of the example meet the hypotheses. -/
example : (∀ k ∈ [[1, 0], [2, 0], [3, 0], [(4 : Byte), 0]], k.length = demoCfg.ksz) ∧
    ∀ i < 4, ∀ j < 4, demoCfg.cmp ([[1, 0], [2, 0], [3, 0], [(4 : Byte), 0]].getD i []) ([[1, 0], [2, 0], [3, 0], [(4 : Byte), 0]].getD j []) = 0 → i = j := by
  decide +kernel

/-- C192. `bmap_delete(m, POS)` evaluates POS three times: the key is taken from the second position it gives, the value from the third. -/
theorem bmap_delete_thrice (c : Cfg) (b : BM) (S : List (List Byte × List Byte)) (h : View c b S) (hk : b.keys.count * c.ksz < 2^64)
    (hv : b.keys.count * c.vsz < 2^64) (pos : Ex σ Nat) (s s1 s2 s3 : σ) (p0 p1 p2 : Nat) (h0 : pos s = .ok (p0, s1)) (h1 : pos s1 = .ok (p1, s2))
    (h2 : pos s2 = .ok (p2, s3)) (hp1 : p1 < S.length) (hp2 : p2 < S.length) :
    ∃ b', bmDelete c b pos s = .ok (b', s3) ∧ Tglist.Spec.Rep c.ksz b'.keys ((S.map Prod.fst).eraseIdx p1) ∧
      Tglist.Spec.Rep c.vsz b'.values ((S.map Prod.snd).eraseIdx p2) :=
  bmDelete_at h hk hv pos s s1 s2 s3 p0 p1 p2 h0 h1 h2 hp1 hp2

/-- C192. `bmap_delete(m, i++)`: entry `i` stays, key `i + 1` is gone, and key `i + 2` has the value of key `i + 1`. -/
theorem bmap_delete_increment (c : Cfg) (b : BM) (S : List (List Byte × List Byte)) (hc : CfgOk c) (h : View c b S) (hk : b.keys.count * c.ksz < 2^64)
    (hv : b.keys.count * c.vsz < 2^64) (i : Nat) (hi : i + 2 < S.length) :
    ∃ b', bmDelete c b (fun i => .ok (i, i + 1)) i = .ok (b', i + 3) ∧
      View c b' (S.take (i + 1) ++ (S[i + 2].1, S[i + 1].2) :: S.drop (i + 3)) := by
  obtain ⟨b', e, r1, r2⟩ := bmDelete_at h hk hv (fun i => .ok (i, i + 1)) i (i + 1) (i + 2) (i + 3) i (i + 1) (i + 2) rfl rfl rfl (by omega) hi
  obtain ⟨q1, q2⟩ := erase_shift S i hi
  refine ⟨b', e, by rw [← q1]; exact r1, by rw [← q2]; exact r2, ?_⟩
  have hs : (S.map Prod.fst).Pairwise (fun x y => c.cmp x y < 0) := List.pairwise_map.2 h.sorted
  have hsub := hs.sublist (List.eraseIdx_sublist _ (i + 1))
  rw [q1] at hsub
  exact List.pairwise_map.1 hsub

/-- C192. … and with `i` one of the last two entries the memory behind the arrays is read. -/
theorem bmap_delete_increment_end (c : Cfg) (b : BM) (S : List (List Byte × List Byte)) (h : View c b S) (hk : b.keys.capa * c.ksz < 2^63)
    (hv : b.values.capa * c.vsz < 2^63) (hk1 : (b.keys.count + 1) * c.ksz < 2^64) (hv1 : (b.keys.count + 1) * c.vsz < 2^64)
    (hks : c.ksz < 2^63) (hvs : c.vsz < 2^63) (i : Nat) (hi : i < S.length) (hi2 : S.length ≤ i + 2) :
    bmDelete c b (fun i => .ok (i, i + 1)) i = .error .oobRead := by
  have hkc : b.keys.count = S.length := by rw [h.keys.count]; simp
  have hcnt : b.values.count = S.length := by rw [h.values.count]; simp
  unfold bmDelete
  simp only [ok_bindE]
  by_cases he : i + 1 = S.length
  · rw [he, ← hkc, delete_end h.keys hk hks hk1]
    rfl
  · obtain ⟨ks, d1, _⟩ := Tglist.delete_spec h.keys (mul_lt_of hk1 (by omega)) (i := i + 1) (by simp; omega)
    rw [d1, show i + 1 + 1 = b.values.count by omega, ok_bindE, delete_end h.values hv hvs (by rw [hcnt, ← hkc]; exact hv1)]
    rfl

example : bmDelete demoCfg ⟨⟨4, 4, [1, 0, 2, 0, 3, 0, 4, 0]⟩, ⟨4, 4, [11, 12, 13, 14]⟩⟩ (fun i => .ok (i, i + 1)) 0 =
      .ok (⟨⟨3, 4, [1, 0, 3, 0, 4, 0, 4, 0]⟩, ⟨3, 4, [11, 12, 14, 14]⟩⟩, 3) ∧
    bmDelete demoCfg ⟨⟨2, 4, [1, 0, 2, 0, 3, 0, 4, 0]⟩, ⟨2, 4, [11, 12, 13, 14]⟩⟩ (fun i => .ok (i, i + 1)) 0 = .error .oobRead := by decide +kernel

/-- C192. `hbmap_insert(m, KEY, VAL)` evaluates KEY up to four times: the bucket is chosen by the first, searched for the second, and, if that is not
    found there, the fourth is put into the bucket of the third. A search for the fourth then fails exactly if the third belongs to another bucket
    (and it was not in the map). -/
theorem hbmap_insert_four (c : HCfg) (hc : HCfgOk c) (h : List BM) (Ss : List (List (List Byte × List Byte))) (hv : Bmap.HView c h Ss) (n : Nat)
    (hn : Bmap.SizeLe Ss n) (hn32 : n + 1 < 2^32) (hlen : h.length < 2^32 - 1) (hk : (2 * n + 4) * c.ksz < 2^64) (hvz : (2 * n + 4) * c.vsz < 2^64)
    (a1 a2 : Alloc) (h1 : a1 ≠ none) (h2 : a2 ≠ none) (key val : Ex σ (List Byte)) (s s1 s2 s3 s4 t : σ) (k1 k2 k3 k4 v : List Byte)
    (e1 : key s = .ok (k1, s1)) (e2 : key s1 = .ok (k2, s2)) (e3 : key s2 = .ok (k3, s3)) (e4 : key s3 = .ok (k4, s4)) (ev : val s4 = .ok (v, t))
    (hkl : k4.length = c.ksz) (hvl : v.length = c.vsz)
    (hno : ∀ S ∈ Ss, ∀ e ∈ S, c.cmp k2 e.1 ≠ 0) (hno4 : ∀ S ∈ Ss, ∀ e ∈ S, c.cmp k4 e.1 ≠ 0) :
    ∃ h' it it', hbInsert c a1 a2 h key val s = .ok (h', it, t) ∧ Bmap.hfind c h' k4 = .ok it' ∧
      (Bmap.isNone it' = true ↔ (c.hash k4).toNat % h.length ≠ (c.hash k3).toNat % h.length) := by
  have hb1 := Bmap.bidx_lt hv k1
  have hb3 := Bmap.bidx_lt hv k3
  have hb4 := Bmap.bidx_lt hv k4
  have hl := hv.len
  obtain ⟨b', it, p, g1, g2, g3⟩ := hbInsert_four hc hv hn (by omega) hk hvz a1 a2 h1 h2 key val s s1 s2 s3 s4 t k1 k2 k3 k4 v e1 e2 e3 e4 ev hkl hvl
    hb1 hb3 (hno _ (List.getElem_mem _)) (hno4 _ (List.getElem_mem _))
  have hi3 : Bmap.bidx c Ss k3 = (c.hash k3).toNat % h.length := by unfold Bmap.bidx; rw [hl]
  have hi4 : Bmap.bidx c Ss k4 = (c.hash k4).toNat % h.length := by unfold Bmap.bidx; rw [hl]
  have hs3 := hn _ (List.getElem_mem hb3)
  have hs4 := hn _ (List.getElem_mem hb4)
  have hset : (h.set (Bmap.bidx c Ss k3) b').length = h.length := List.length_set
  have hlt : (c.hash k4).toNat % (h.set (Bmap.bidx c Ss k3) b').length < (h.set (Bmap.bidx c Ss k3) b').length := by
    rw [hset, ← hi4]; omega
  by_cases he : (c.hash k4).toNat % h.length = (c.hash k3).toNat % h.length
  · have hV : View c.toCfg (h.set (Bmap.bidx c Ss k3) b')[(c.hash k4).toNat % (h.set (Bmap.bidx c Ss k3) b').length]
        (Ss[Bmap.bidx c Ss k3].take p ++ (k4, v) :: Ss[Bmap.bidx c Ss k3].drop p) := by
      rw [List.getElem_set, if_pos (by rw [hset, he, hi3])]; exact g3
    obtain ⟨it', q1, q2⟩ := hfind_bucket hc (by rw [hset]; exact hv.pos) (by rw [hset]; exact hlen) k4 hlt hV
      (mul_lt_of hk (by simp; omega)) (by simp; omega)
    refine ⟨_, it, it', g1, q1, q2.trans ⟨fun hx => ?_, fun hx => absurd he hx⟩⟩
    exact absurd (hc.cmp.refl k4) (hx (k4, v) (by simp))
  · have hne : Bmap.bidx c Ss k3 ≠ (c.hash k4).toNat % (h.set (Bmap.bidx c Ss k3) b').length := by
      rw [hset, hi3]; exact fun hx => he hx.symm
    have hV : View c.toCfg (h.set (Bmap.bidx c Ss k3) b')[(c.hash k4).toNat % (h.set (Bmap.bidx c Ss k3) b').length] Ss[Bmap.bidx c Ss k4] := by
      rw [List.getElem_set, if_neg hne]
      have := hv.view (Bmap.bidx c Ss k4) (by omega)
      have hx : (c.hash k4).toNat % (h.set (Bmap.bidx c Ss k3) b').length = Bmap.bidx c Ss k4 := by rw [hset, hi4]
      simp only [hx]
      exact this
    obtain ⟨it', q1, q2⟩ := hfind_bucket hc (by rw [hset]; exact hv.pos) (by rw [hset]; exact hlen) k4 hlt hV
      (mul_lt_of hk (by omega)) (by omega)
    exact ⟨_, it, it', g1, q1, q2.trans ⟨fun _ => he, fun _ => hno4 _ (List.getElem_mem _)⟩⟩

/-- Two buckets by the parity of the first byte: `hbmap_insert(m, keys[i++], …)` with keys 2, 4, 5, 6 puts 6 into the bucket of 5, where it is not found. -/
example :
    let c : HCfg := { demoCfg with hash := fun k => (k.headD 0).setWidth 32 }
    (hbInsert c (some fun _ => 0) (some fun _ => 0) (Bmap.hinit 2) (next [[2, 0], [4, 0], [5, 0], [6, 0]]) (fun i => .ok ([1], i)) 0 >>=
      fun q => Bmap.hfind c q.1 [6, 0] >>= fun it => pure (Bmap.isNone it, q.2.2)) = .ok (true, 4) := by decide +kernel

/-- C192. FREEFLAGS is used without parentheses, so that what `bmap_fini` frees is what it would free for the flags: the value of the argument, if that is a
    number, a variable or in parentheses; for `a | b` both keys and values as soon as `a` is not zero; for `x ? a : b` with true `x` both or
    none. -/
theorem bmap_fini_flags (c : Cfg) (b : BM) (ka va : Nat) (live : List Nat) (m n x : Nat) (e : Flags) :
    bmFini c b ka va (.num n) live = Ibmap.fini c b ka va n live ∧
    bmFini c b ka va (.paren e) live = Ibmap.fini c b ka va e.value live ∧
    bmFini c b ka va (.or (.num m) (.num n)) live = Ibmap.fini c b ka va (if m = 0 then n else 3) live ∧
    bmFini c b ka va (.cond x (.num m) (.num n)) live = Ibmap.fini c b ka va (if x = 0 then n else if m = 0 then 0 else 3) live := by
  have key : ∀ (e : Flags) (k : Nat), (e.andWith 1 ≠ 0 ↔ k &&& 1 ≠ 0) → (e.andWith 2 ≠ 0 ↔ k &&& 2 ≠ 0) →
      bmFini c b ka va e live = Ibmap.fini c b ka va k live := by
    intro e k h1 h2
    unfold bmFini Ibmap.fini
    rw [freeIf_congr h1]
    congr 1
    funext l
    rw [freeIf_congr h2]
  have hor : ∀ m y : Nat, m ≠ 0 → (m ||| y) ≠ 0 := by
    intro m y hm h0
    exact hm (Nat.or_eq_zero_iff.1 h0).1
  refine ⟨rfl, rfl, key _ _ ?_ ?_, key _ _ ?_ ?_⟩
  · by_cases hm : m = 0
    · subst hm; simp [Flags.andWith, Flags.value]
    · simp only [if_neg hm, Flags.andWith, Flags.value]
      exact ⟨fun _ => by decide, fun _ => hor _ _ hm⟩
  · by_cases hm : m = 0
    · subst hm; simp [Flags.andWith, Flags.value]
    · simp only [if_neg hm, Flags.andWith, Flags.value]
      exact ⟨fun _ => by decide, fun _ => hor _ _ hm⟩
  · by_cases hx : x = 0
    · subst hx; simp [Flags.andWith, Flags.value]
    · by_cases hm : m = 0
      · subst hm; simp [Flags.andWith, Flags.value, hx]
      · simp [Flags.andWith, Flags.value, hx, hm]
  · by_cases hx : x = 0
    · subst hx; simp [Flags.andWith, Flags.value]
    · by_cases hm : m = 0
      · subst hm; simp [Flags.andWith, Flags.value, hx]
      · simp [Flags.andWith, Flags.value, hx, hm]

/-- `bmap_fini(m, own ? 1 : 0)`, meant to free the keys, frees the value, too. -/
example : bmFini ptrCfg ⟨⟨1, 1, Tglist.leBytes 8 64⟩, ⟨1, 1, Tglist.leBytes 8 72⟩⟩ 80 88 (.cond 1 (.num 1) (.num 0)) [64, 72, 80, 88] = .ok [] ∧
    bmFini ptrCfg ⟨⟨1, 1, Tglist.leBytes 8 64⟩, ⟨1, 1, Tglist.leBytes 8 72⟩⟩ 80 88 (.paren (.cond 1 (.num 1) (.num 0))) [64, 72, 80, 88] = .ok [72] := by
  decide +kernel

/-- C192. `MIN(x, y)` and `MAX(x, y)` evaluate the argument they choose again: the result is its second value. -/
theorem min_max_again {τ : Type} (x : Ex σ Int) (y : Ex τ Int) (s s1 s2 : σ) (t t1 t2 : τ) (a a' b b' : Int) (hx : x s = .ok (a, s1))
    (hx' : x s1 = .ok (a', s2)) (hy : y t = .ok (b, t1)) (hy' : y t1 = .ok (b', t2)) :
    MIN x y s t = .ok (if a < b then (a', s2, t1) else (b', s1, t2)) ∧ MAX x y s t = .ok (if b < a then (a', s2, t1) else (b', s1, t2)) := by
  unfold MIN MAX
  rw [hx, hy]
  constructor
  · by_cases h : a < b
    · rw [if_pos h]
      show (if a < b then _ else _) = _
      rw [if_pos h, hx']; rfl
    · rw [if_neg h]
      show (if a < b then _ else _) = _
      rw [if_neg h, hy']; rfl
  · by_cases h : b < a
    · rw [if_pos h]
      show (if a > b then _ else _) = _
      rw [if_pos (show a > b from h), hx']; rfl
    · rw [if_neg h]
      show (if a > b then _ else _) = _
      rw [if_neg (show ¬ a > b from h), hy']; rfl

/-- `MIN(*p++, 10)` over 3, 99 is 99. -/
example : MIN (fun i => .ok (([3, 99].getD i 0 : Int), i + 1)) (fun u : Unit => .ok (10, u)) 0 () = .ok (99, 2, ()) := by decide +kernel

/-- C192. `tglist_add(l, ITEM)` evaluates ITEM once if it returns 1, and not at all if memory is refused. -/
theorem tglist_add_lazy (isz : Nat) (a : Alloc) (l : TG) (xs : List (List Byte)) (h : Tglist.Spec.Rep isz l xs) (hb : (2 * l.count + 4) * isz < 2^64)
    (item : Ex σ (List Byte)) (s s' : σ) (x : List Byte) (hx : item s = .ok (x, s')) (hl : x.length = isz) :
    (∃ l', tgAdd isz a l item s = .ok (l', 1, s') ∧ Tglist.Spec.Rep isz l' (xs ++ [x])) ∨
    (a = none ∧ l.count = l.capa ∧ tgAdd isz a l item s = .ok (l, 0, s)) := by
  have key : ∀ l1, Tglist.grow_if_needed isz a l = (l1, 1) → tgAdd isz a l item s = (Tglist.add isz a l x >>= fun q => pure (q.1, q.2, s')) := by
    intro l1 hg
    unfold tgAdd Tglist.add
    rw [hg]
    simp only
    rw [if_neg (by omega), if_neg (by omega), hx, ok_bindE]
  rcases Tglist.grow_spec h hb a with ⟨l1, hg, _⟩ | ⟨ha, hc, hg⟩
  · rcases Tglist.add_spec h hb a x hl with ⟨l', e1, e2, _⟩ | ⟨ha, hc, e1⟩
    · exact .inl ⟨l', by rw [key l1 hg, e1]; rfl, e2⟩
    · unfold Tglist.add at e1
      rw [hg] at e1
      simp only at e1
      rw [if_neg (by omega)] at e1
      have := set_one e1
      omega
  · refine .inr ⟨ha, hc, ?_⟩
    unfold tgAdd
    rw [hg]
    rfl

example : tgAdd 2 none ⟨1, 1, [5, 5]⟩ (next [[3, 0]]) 0 = .ok (⟨1, 1, [5, 5]⟩, 0, 0) ∧
    tgAdd 2 none ⟨0, 1, [5, 5]⟩ (next [[3, 0]]) 0 = .ok (⟨1, 1, [3, 0]⟩, 1, 1) := by decide +kernel

end Ulz.Props

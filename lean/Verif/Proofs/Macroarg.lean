import Verif.Model.Macroarg
import Verif.Proofs.Multimap
import Verif.Proofs.Hbmap
set_option linter.unusedVariables false
namespace Ulz.Macroarg
open Ulz.Tglist (TG)
open Ulz.Bmap (Cfg HCfg BM Iter KV)
open Ulz.Bmap.Spec (CfgOk View lookup)
open Ulz.Multimap (Al)
open Ulz.Sblist (mul_lt_of)

variable {σ : Type}

theorem set_one {isz : Nat} {l l' : TG} {x : List Byte} {p r : Nat} (h : Tglist.set isz l x p = .ok (l', r)) : r = 1 := by
  unfold Tglist.set at h
  cases e1 : rdN x 0 isz with
  | error e => rw [e1] at h; cases h
  | ok y =>
    rw [e1, ok_bindE] at h
    cases e2 : wrN l.items (szt (p * isz)) y with
    | error e => rw [e2] at h; cases h
    | ok z => rw [e2, ok_bindE] at h; cases h; rfl

theorem tgInsert_eq (isz : Nat) (a : Alloc) (l : TG) (val : Ex σ (List Byte)) (p : Nat) (s s' : σ) (v : List Byte) (hv : val s = .ok (v, s')) :
    tgInsert isz a l val (fun s => pure (p, s)) s =
      (Tglist.insert isz a l v p >>= fun q => pure (q.1, q.2, if q.2 = 0 then s else s')) := by
  unfold tgInsert Tglist.insert
  simp only [pure_eq_ok, ok_bindE]
  generalize Tglist.grow_if_needed isz a l = q
  obtain ⟨l1, ok⟩ := q
  simp only
  by_cases hk : ok = 0
  · rw [if_pos hk, if_pos hk]; rfl
  · rw [if_neg hk, if_neg hk]
    cases Tglist.memmove_impl isz l1 (p + 1) (-1) with
    | error e => rfl
    | ok l2 =>
      rw [ok_bindE, ok_bindE, hv, ok_bindE]
      cases hs : Tglist.set isz { l2 with count := l2.count + 1 } v p with
      | error e => rfl
      | ok q =>
        obtain ⟨l3, r⟩ := q
        rw [ok_bindE, ok_bindE, set_one hs]
        rfl

theorem nocheck_eq (c : Cfg) (a1 a2 : Alloc) (b : BM) (key val : Ex σ (List Byte)) (s s1 s2 : σ) (k v : List Byte)
    (hk : key s = .ok (k, s1)) (hv : val s1 = .ok (v, s2)) :
    bmInsertNocheck c a1 a2 b key val s =
      (Bmap.insert_nocheck c a1 a2 b k v >>= fun q => pure (q.1, q.2.1, q.2.2, if q.2.1 = none then s1 else s2)) := by
  unfold bmInsertNocheck Bmap.insert_nocheck
  rw [hk, ok_bindE]
  simp only
  cases Tglist.insert_sorted c.ksz a1 b.keys k c.cmp with
  | error e => rfl
  | ok q =>
    obtain ⟨ks, p⟩ := q
    rw [ok_bindE, ok_bindE]
    simp only
    cases p with
    | none => rfl
    | some p =>
      simp only
      rw [tgInsert_eq c.vsz a2 b.values val p s1 s2 v hv]
      cases Tglist.insert c.vsz a2 b.values v p with
      | error e => rfl
      | ok q =>
        obtain ⟨vs, ok⟩ := q
        rw [ok_bindE, ok_bindE, pure_eq_ok, ok_bindE]
        simp only
        by_cases h : ok = 0
        · subst h
          simp only [ne_eq, not_true_eq_false, if_false, if_true]
          cases Tglist.delete c.ksz ks p with
          | error e => rfl
          | ok z => rfl
        · rw [if_pos h, if_neg h, if_pos h]; rfl

theorem view_al {c : Cfg} {b : BM} {S : List KV} (h : View c b S) : Al c b S := ⟨h.keys, h.values⟩

/-! ### bmap_insert -/

theorem bmInsert_any {c : Cfg} (hc : CfgOk c) {b : BM} {S : List KV} (h : View c b S) (hk : (2 * b.keys.count + 4) * c.ksz < 2^64)
    (hv : (2 * b.keys.count + 4) * c.vsz < 2^64) (a1 a2 : Alloc) (key val : Ex σ (List Byte)) (s s1 : σ) (k1 : List Byte)
    (hk1 : key s = .ok (k1, s1)) :
    (∀ (i : Nat) (hi : i < S.length), Bmap.find c b k1 = .ok (some i) → c.cmp k1 S[i].1 = 0 → ∀ v t, val s1 = .ok (v, t) → v.length = c.vsz →
      ∃ b', bmInsert c a1 a2 b key val s = .ok (b', some i, t) ∧ View c b' (S.set i (S[i].1, v))) ∧
    ((∀ e ∈ S, c.cmp k1 e.1 ≠ 0) → ∀ k2 s2 v t, key s1 = .ok (k2, s2) → k2.length = c.ksz → val s2 = .ok (v, t) → v.length = c.vsz →
      (∃ b' p, bmInsert c a1 a2 b key val s = .ok (b', some p, t) ∧ p ≤ S.length ∧ Al c b' (S.take p ++ (k2, v) :: S.drop p) ∧
        ((∀ e ∈ S, c.cmp k2 e.1 ≠ 0) → View c b' (S.take p ++ (k2, v) :: S.drop p))) ∨
      (∃ b' ss, (a1 = none ∨ a2 = none) ∧ bmInsert c a1 a2 b key val s = .ok (b', ss, s2) ∧ Al c b' S)) := by
  have hcnt : b.values.count = b.keys.count := by rw [h.values.count, h.keys.count]; simp
  constructor
  · intro i hi f1 f2 v t hval hvl
    obtain ⟨vs, e1, e2, _⟩ := Bmap.set_view hc h (mul_lt_of hv (by omega)) hi v hvl
    refine ⟨_, ?_, e2⟩
    unfold bmInsert bmFind
    rw [hk1, ok_bindE]
    simp only
    rw [f1]
    simp only [ok_bindE, pure_eq_ok]
    rw [hval]
    simp only [ok_bindE]
    rw [e1]
    rfl
  · intro hnew k2 s2 v t hk2 hkl hval hvl
    have hf : Bmap.find c b k1 = .ok none := by
      rcases Bmap.find_spec hc h (mul_lt_of hk (by omega)) k1 with ⟨i, hi, f1, f2, f3⟩ | ⟨f1, f2, f3⟩
      · exact absurd f2 (hnew _ (List.getElem_mem _))
      · exact f1
    have he : bmInsert c a1 a2 b key val s =
        (Bmap.insert_nocheck c a1 a2 b k2 v >>= fun q => pure (q.1, q.2.2, if q.2.1 = none then s2 else t)) := by
      unfold bmInsert bmFind
      rw [hk1, ok_bindE]
      simp only
      rw [hf]
      simp only [ok_bindE, pure_eq_ok]
      rw [nocheck_eq c a1 a2 b key val s1 s2 t k2 v hk2 hval]
      cases Bmap.insert_nocheck c a1 a2 b k2 v with
      | error e => rfl
      | ok q => rfl
    rcases Multimap.nocheck_al (view_al h) hk hv a1 a2 k2 v hkl hvl with ⟨b', p, r1, r2, r3, r4⟩ | ⟨b', ss, r0, r1, r2⟩
    · refine .inl ⟨b', p, by rw [he, r1]; rfl, r2, r3, fun hn => ?_⟩
      rcases Bmap.nocheck_spec hc h hk hv a1 a2 k2 v hkl hvl hn with ⟨b2, p2, _, _, q1, q2, q3, q4⟩ | ⟨_, _, q1⟩ | ⟨b2, p2, _, _, _, _, q1, _⟩
      · rw [q1] at r1; cases r1; exact q3
      · rw [q1] at r1; cases r1
      · rw [q1] at r1; cases r1
    · exact .inr ⟨b', ss, r0, by rw [he, r1]; rfl, r2⟩

/-! ### The loop -/

theorem next_lt {a : List (List Byte)} {i : Nat} (h : i < a.length) : next a i = .ok (a[i], i + 1) := by
  unfold next; rw [List.getElem?_eq_getElem h]

theorem next_ge {a : List (List Byte)} {i : Nat} (h : a.length ≤ i) : next a i = .error .oobRead := by
  unfold next; rw [List.getElem?_eq_none h]

/-- The entries after `m` rounds. -/
structure Inv (c : Cfg) (keys vals : List (List Byte)) (m : Nat) (b : BM) (S : List KV) : Prop where
  view : View c b S
  len : S.length = m
  sub : ∀ e ∈ S, ∃ j, ∃ (h : 2 * j + 1 < keys.length) (h' : j < vals.length), j < m ∧ e = (keys[2 * j + 1], vals[j])
  sup : ∀ j (h : 2 * j + 1 < keys.length) (h' : j < vals.length), j < m → (keys[2 * j + 1], vals[j]) ∈ S

theorem insertAll_run {c : Cfg} (hc : CfgOk c) (f : Nat → Byte) (keys vals : List (List Byte))
    (hkl : ∀ k ∈ keys, k.length = c.ksz) (hvl : ∀ v ∈ vals, v.length = c.vsz)
    (hd : ∀ i j (hi : i < keys.length) (hj : j < keys.length), c.cmp keys[i] keys[j] = 0 → i = j)
    (hsk : (2 * keys.length + 4) * c.ksz < 2^64) (hsv : (2 * keys.length + 4) * c.vsz < 2^64) (hlen : keys.length ≤ 2 * vals.length) :
    ∀ (r m fuel : Nat) (b : BM) (S : List KV), 2 * (m + r) ≤ keys.length → keys.length ≤ 2 * (m + r) + 1 → r < fuel → Inv c keys vals m b S →
      if keys.length = 2 * (m + r) then
        ∃ b' S', insertAll c f keys vals keys.length fuel b (2 * m, m) = .ok (b', (2 * (m + r), m + r)) ∧ Inv c keys vals (m + r) b' S'
      else insertAll c f keys vals keys.length fuel b (2 * m, m) = .error .oobRead := by
  intro r
  induction r with
  | zero =>
    intro m fuel b S h1 h2 hf hi
    obtain ⟨fuel, rfl⟩ : ∃ k, fuel = k + 1 := ⟨fuel - 1, by omega⟩
    rw [insertAll]
    simp only [Nat.add_zero] at *
    split
    · rename_i he
      rw [if_neg (by omega)]
      exact ⟨b, S, rfl, hi⟩
    · rename_i he
      rw [if_pos (by omega)]
      have hkm : 2 * m < keys.length := by omega
      have hnew : ∀ e ∈ S, c.cmp keys[2 * m] e.1 ≠ 0 := by
        intro e he2 h0
        obtain ⟨j, g1, g2, g3, rfl⟩ := hi.sub e he2
        have := hd _ _ hkm g1 h0
        omega
      have hff : Bmap.find c b keys[2 * m] = .ok none := by
        have hkc : b.keys.count = S.length := by rw [hi.view.keys.count]; simp
        rcases Bmap.find_spec hc hi.view (mul_lt_of hsk (by have := hi.len; omega)) keys[2 * m] with ⟨i, hi', f1, f2, f3⟩ | ⟨f1, f2, f3⟩
        · exact absurd f2 (hnew _ (List.getElem_mem _))
        · exact f1
      unfold bmInsert bmFind
      simp only [next_lt hkm, ok_bindE, pure_eq_ok]
      rw [hff]
      simp only [ok_bindE]
      unfold bmInsertNocheck
      simp only [next_ge (show keys.length ≤ 2 * m + 1 by omega)]
      rfl
  | succ r ih =>
    intro m fuel b S h1 h2 hf hi
    obtain ⟨fuel, rfl⟩ : ∃ k, fuel = k + 1 := ⟨fuel - 1, by omega⟩
    have hkm : 2 * m < keys.length := by omega
    have hkm1 : 2 * m + 1 < keys.length := by omega
    have hvm : m < vals.length := by omega
    have hnew : ∀ i (h : i < keys.length), 2 * m ≤ i → ∀ e ∈ S, c.cmp keys[i] e.1 ≠ 0 := by
      intro i h hmi e he2 h0
      obtain ⟨j, g1, g2, g3, rfl⟩ := hi.sub e he2
      have := hd _ _ h g1 h0
      omega
    have hkc : b.keys.count = S.length := by rw [hi.view.keys.count]; simp
    have hl := hi.len
    have hst := (bmInsert_any hc hi.view (mul_lt_of hsk (by omega)) (mul_lt_of hsv (by omega)) (some f) (some f)
      (fun s => do let (k, i) ← next keys s.1; pure (k, (i, s.2)))
      (fun s => do let (v, j) ← next vals s.2; pure (v, (s.1, j))) (2 * m, m) (2 * m + 1, m) keys[2 * m]
      (by simp only [next_lt hkm]; rfl)).2 (hnew _ hkm (Nat.le_refl _)) keys[2 * m + 1] (2 * m + 2, m) vals[m] (2 * m + 2, m + 1)
      (by simp only [next_lt hkm1]; rfl) (hkl _ (List.getElem_mem _)) (by simp only [next_lt hvm]; rfl) (hvl _ (List.getElem_mem _))
    rcases hst with ⟨b', p, e1, e2, _, e4⟩ | ⟨b', ss, e0, _⟩
    · have hV := e4 (hnew _ hkm1 (by omega))
      have hmem : ∀ e, e ∈ S.take p ++ (keys[2 * m + 1], vals[m]) :: S.drop p ↔ e ∈ S ∨ e = (keys[2 * m + 1], vals[m]) := by
        intro e
        rw [List.mem_append, List.mem_cons]
        have : e ∈ S ↔ e ∈ S.take p ∨ e ∈ S.drop p := by
          rw [← List.mem_append, List.take_append_drop]
        rw [this]
        constructor
        · rintro (h | h | h)
          · exact .inl (.inl h)
          · exact .inr h
          · exact .inl (.inr h)
        · rintro ((h | h) | h)
          · exact .inl h
          · exact .inr (.inr h)
          · exact .inr (.inl h)
      have hI : Inv c keys vals (m + 1) b' (S.take p ++ (keys[2 * m + 1], vals[m]) :: S.drop p) := by
        refine ⟨hV, ?_, ?_, ?_⟩
        · simp; omega
        · intro e he
          rcases (hmem e).1 he with he | he
          · obtain ⟨j, g1, g2, g3, g4⟩ := hi.sub e he
            exact ⟨j, g1, g2, by omega, g4⟩
          · exact ⟨m, hkm1, hvm, by omega, he⟩
        · intro j g1 g2 g3
          rw [hmem]
          by_cases hj : j = m
          · subst hj; exact .inr rfl
          · exact .inl (hi.sup j g1 g2 (by omega))
      have := ih (m + 1) fuel b' _ (by omega) (by omega) (by omega) hI
      rw [show m + 1 + r = m + (r + 1) by omega, show 2 * (m + 1) = 2 * m + 2 by omega] at this
      rw [insertAll, if_pos (show (2 * m, m).1 < keys.length from hkm), e1]
      simp only [ok_bindE]
      exact this
    · rcases e0 with e0 | e0 <;> cases e0

/-! ### bmap_delete -/

theorem delete_end {isz : Nat} {l : TG} {xs} (h : Tglist.Spec.Rep isz l xs) (hcap : l.capa * isz < 2^63) (hsz : isz < 2^63)
    (hc : (l.count + 1) * isz < 2^64) : Tglist.delete isz l l.count = .error .oobRead := by
  have hil := h.items_length
  have hpos := h.pos
  unfold Tglist.delete Tglist.memmove_impl
  dsimp only
  have hlen : szt (sztSub l.count (szt (l.count + ((1 : Int) % 2^64).toNat)) * isz) = 2^64 - isz := by
    have h1 : ((1 : Int) % 2^64).toNat = 1 := by decide
    have hle : (l.count + 1) * 1 ≤ (l.count + 1) * isz := Nat.mul_le_mul_left _ hpos
    rw [h1, szt_of_lt (show l.count + 1 < 2^64 by omega)]
    have : sztSub l.count (l.count + 1) = 2^64 - 1 := by unfold sztSub; omega
    rw [this]
    unfold szt
    have : (2^64 - 1) * isz = (2^64 - isz) + (isz - 1) * 2^64 := by
      rw [Nat.sub_mul, Nat.sub_mul]; omega
    rw [this, Nat.add_mul_mod_self_right]
    exact Nat.mod_eq_of_lt (by omega)
  rw [hlen]
  unfold memmove rdN
  rw [if_neg (by omega)]
  rfl

theorem bmDelete_at {c : Cfg} {b : BM} {S : List KV} (h : View c b S) (hk : b.keys.count * c.ksz < 2^64)
    (hv : b.keys.count * c.vsz < 2^64) (pos : Ex σ Nat) (s s1 s2 s3 : σ) (p0 p1 p2 : Nat) (h0 : pos s = .ok (p0, s1)) (h1 : pos s1 = .ok (p1, s2))
    (h2 : pos s2 = .ok (p2, s3)) (hp1 : p1 < S.length) (hp2 : p2 < S.length) :
    ∃ b', bmDelete c b pos s = .ok (b', s3) ∧ Tglist.Spec.Rep c.ksz b'.keys ((S.map Prod.fst).eraseIdx p1) ∧
      Tglist.Spec.Rep c.vsz b'.values ((S.map Prod.snd).eraseIdx p2) := by
  have hcnt : b.values.count = b.keys.count := by rw [h.values.count, h.keys.count]; simp
  obtain ⟨ks, d1, d2, _, _⟩ := Tglist.delete_spec h.keys hk (i := p1) (by simpa using hp1)
  obtain ⟨vs, e1, e2, _, _⟩ := Tglist.delete_spec h.values (by rw [hcnt]; exact hv) (i := p2) (by simpa using hp2)
  refine ⟨⟨ks, vs⟩, ?_, d2, e2⟩
  unfold bmDelete
  rw [h0, ok_bindE]
  simp only
  rw [h1, ok_bindE]
  simp only
  rw [d1, ok_bindE, h2, ok_bindE]
  simp only
  rw [e1]
  rfl

theorem erase_shift (S : List KV) (i : Nat) (h : i + 2 < S.length) :
    (S.map Prod.fst).eraseIdx (i + 1) = (S.take (i + 1) ++ (S[i + 2].1, S[i + 1].2) :: S.drop (i + 3)).map Prod.fst ∧
    (S.map Prod.snd).eraseIdx (i + 2) = (S.take (i + 1) ++ (S[i + 2].1, S[i + 1].2) :: S.drop (i + 3)).map Prod.snd := by
  constructor
  · rw [← Tglist.map_eraseIdx', List.eraseIdx_eq_take_drop_succ, List.drop_eq_getElem_cons (show i + 1 + 1 < S.length from h)]
    rw [List.map_append, List.map_append, List.map_cons, List.map_cons]
  · rw [← Tglist.map_eraseIdx', List.eraseIdx_eq_take_drop_succ, List.take_succ_eq_append_getElem (show i + 1 < S.length by omega)]
    rw [List.append_assoc, List.map_append, List.map_append, List.map_append, List.map_cons]
    rfl

/-! ### hbmap_insert -/

theorem hbInsert_four {c : HCfg} (hc : Bmap.Spec.HCfgOk c) {h : List BM} {Ss : List (List KV)} (hv : Bmap.HView c h Ss) {n : Nat} (hn : Bmap.SizeLe Ss n)
    (hn32 : n < 2^32) (hk : (2 * n + 4) * c.ksz < 2^64) (hvz : (2 * n + 4) * c.vsz < 2^64) (a1 a2 : Alloc) (h1 : a1 ≠ none) (h2 : a2 ≠ none)
    (key val : Ex σ (List Byte)) (s s1 s2 s3 s4 t : σ) (k1 k2 k3 k4 v : List Byte) (e1 : key s = .ok (k1, s1)) (e2 : key s1 = .ok (k2, s2))
    (e3 : key s2 = .ok (k3, s3)) (e4 : key s3 = .ok (k4, s4)) (ev : val s4 = .ok (v, t)) (hkl : k4.length = c.ksz) (hvl : v.length = c.vsz)
    (hb1 : Bmap.bidx c Ss k1 < Ss.length) (hb3 : Bmap.bidx c Ss k3 < Ss.length)
    (hno : ∀ e ∈ Ss[Bmap.bidx c Ss k1], c.cmp k2 e.1 ≠ 0) (hno4 : ∀ e ∈ Ss[Bmap.bidx c Ss k3], c.cmp k4 e.1 ≠ 0) :
    ∃ b' it p, hbInsert c a1 a2 h key val s = .ok (h.set (Bmap.bidx c Ss k3) b', it, t) ∧ p ≤ Ss[Bmap.bidx c Ss k3].length ∧
      View c.toCfg b' (Ss[Bmap.bidx c Ss k3].take p ++ (k4, v) :: Ss[Bmap.bidx c Ss k3].drop p) := by
  have hlen := hv.len
  have hsm := hv.small
  have hbk : ∀ k, Bmap.bidx c Ss k < Ss.length → ∃ hh : Bmap.bidx c Ss k < h.length,
      Bmap.bucket h (Bmap.iterBucket (Bmap.makeBucket (BitVec.ofNat 64 (Bmap.bidx c Ss k)))) = .ok h[Bmap.bidx c Ss k] ∧
      Bmap.iterBucket (Bmap.makeBucket (BitVec.ofNat 64 (Bmap.bidx c Ss k))) = Bmap.bidx c Ss k := by
    intro k hk
    have hh : Bmap.bidx c Ss k < h.length := by omega
    refine ⟨hh, ?_, ?_⟩
    · rw [Bmap.makeBucket_eq (by omega), Bmap.iterBucket_mk (by omega) (by omega), Bmap.bucket_spec hh]
    · rw [Bmap.makeBucket_eq (by omega), Bmap.iterBucket_mk (by omega) (by omega)]
  obtain ⟨hh1, q1, _⟩ := hbk k1 hb1
  obtain ⟨hh3, q3, q3'⟩ := hbk k3 hb3
  have hV1 := hv.view _ hh1
  have hV3 := hv.view _ hh3
  have hc1 : h[Bmap.bidx c Ss k1].keys.count = Ss[Bmap.bidx c Ss k1].length := by rw [hV1.keys.count]; simp
  have hc3 : h[Bmap.bidx c Ss k3].keys.count = Ss[Bmap.bidx c Ss k3].length := by rw [hV3.keys.count]; simp
  have hle1 := hn _ (List.getElem_mem hb1)
  have hle3 := hn _ (List.getElem_mem hb3)
  have hf : Bmap.find c.toCfg h[Bmap.bidx c Ss k1] k2 = .ok none := by
    rcases Bmap.find_spec hc.toCfgOk hV1 (mul_lt_of hk (by omega)) k2 with ⟨i, hi, f1, f2, f3⟩ | ⟨f1, f2, f3⟩
    · exact absurd f2 (hno _ (List.getElem_mem _))
    · exact f1
  rcases Bmap.nocheck_spec hc.toCfgOk hV3 (mul_lt_of hk (by omega)) (mul_lt_of hvz (by omega)) a1 a2 k4 v hkl hvl hno4 with
    ⟨b2, p2, _, _, r1, r2, r3, r4⟩ | ⟨r0, _, r1⟩ | ⟨b2, p2, _, r0, _, _, r1, _⟩
  · refine ⟨b2, Bmap.makeBucket (BitVec.ofNat 64 (Bmap.bidx c Ss k3)) ||| Bmap.idx64 (some p2), p2, ?_, r2, r3⟩
    unfold hbInsert hbFind bmFind
    rw [e1, ok_bindE]
    simp only
    rw [Bmap.buckindex_spec hv, ok_bindE, q1, ok_bindE, e2, ok_bindE]
    simp only
    rw [hf]
    simp only [ok_bindE, pure_eq_ok]
    rw [show Bmap.idx64 none = -1#64 from rfl, Bmap.or_neg_one, Bmap.isNone_neg, if_pos rfl]
    unfold hbInsertNocheck
    rw [e3, ok_bindE]
    simp only
    rw [Bmap.buckindex_spec hv, ok_bindE, q3, ok_bindE, nocheck_eq c.toCfg a1 a2 _ key val s3 s4 t k4 v e4 ev, r1]
    simp only [ok_bindE, pure_eq_ok]
    rw [q3']
    rfl
  · exact absurd r0 h1
  · exact absurd r0 h2

/-- Looking for a key in a map whose buckets need not be the right ones. -/
theorem hfind_bucket {c : HCfg} (hc : Bmap.Spec.HCfgOk c) {h : List BM} (hpos : 0 < h.length) (hsm : h.length < 2^32 - 1) (k : List Byte) {S : List KV}
    (hb : (c.hash k).toNat % h.length < h.length) (hV : View c.toCfg h[(c.hash k).toNat % h.length] S) (hk : S.length * c.ksz < 2^64) (hS : S.length < 2^32) :
    ∃ it, Bmap.hfind c h k = .ok it ∧ (Bmap.isNone it = true ↔ ∀ e ∈ S, c.cmp k e.1 ≠ 0) := by
  have hcnt : h[(c.hash k).toNat % h.length].keys.count = S.length := by rw [hV.keys.count]; simp
  unfold Bmap.hfind Bmap.buckindex
  rw [if_neg (by omega), pure_eq_ok, ok_bindE]
  simp only
  rw [Bmap.makeBucket_eq (by omega), Bmap.iterBucket_mk (by omega) (by omega), Bmap.bucket_spec hb]
  simp only [ok_bindE]
  rcases Bmap.find_spec hc.toCfgOk hV (by rw [hcnt]; exact hk) k with ⟨i, hi, f1, f2, f3⟩ | ⟨f1, f2, f3⟩
  · rw [f1]
    refine ⟨_, rfl, ?_⟩
    rw [← Bmap.makeBucket_eq (by omega), Bmap.idx64, Bmap.makeBucket_or (by omega) (by omega), Bmap.mkIter_ne (by omega) (by omega)]
    constructor
    · intro h; cases h
    · intro h; exact absurd f2 (h _ (List.getElem_mem _))
  · rw [f1]
    refine ⟨_, rfl, ?_⟩
    rw [show Bmap.idx64 none = -1#64 from rfl, Bmap.or_neg_one, Bmap.isNone_neg]
    exact ⟨fun _ => f2, fun _ => rfl⟩

/-! ### FREEFLAGS -/

theorem freeIf_congr {x y : Nat} (h : x ≠ 0 ↔ y ≠ 0) (isz : Nat) (l : TG) (live : List Nat) : Ibmap.freeIf x isz l live = Ibmap.freeIf y isz l live := by
  unfold Ibmap.freeIf
  by_cases hx : x ≠ 0
  · rw [if_pos hx, if_pos (h.1 hx)]
  · rw [if_neg hx, if_neg (fun hy => hx (h.2 hy))]

end Ulz.Macroarg

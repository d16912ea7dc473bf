import Verif.Spec.Hstrmap
import Verif.Proofs.Strmap
import Verif.Proofs.Hbmap
/-! Lemmas about hash maps with strings as keys. -/
namespace Ulz.Hstrmap
open Ulz.Bmap (Cfg HCfg BM Op HRes KV HView SizeLe bidx hlook)
open Ulz.Bmap.Spec (View lookup CfgOk HCfgOk OpOk BsearchOk mkIter)
open Ulz.Strmap (Mem cfg cfg_ok cmp_zero view_move ptr_exists view_one smap_lookup smap)
open Ulz.Strmap.Spec (SMap upd rem)
open Ulz.Tglist (leVal)
open Ulz.Sblist (mul_lt_of)
open Spec

variable {bs : List Byte → List (List Byte) → (List Byte → List Byte → Int) → Option Nat} {vsz : Nat} {hf : List Byte → BitVec 32}

theorem hcfg_ok (hbs : BsearchOk bs) (hv : 0 < vsz) (μ : Mem) : HCfgOk (hcfg bs vsz hf μ) where
  toCfgOk := cfg_ok hbs hv μ
  hash k k' h := by
    show hf _ = hf _
    rw [(cmp_zero (bs := bs) (vsz := vsz)).1 h]

/-- The map from strings that the entries of the buckets stand for. -/
def hsmap (hf : List Byte → BitVec 32) (μ : Mem) (Ss : List (List KV)) : SMap := fun s => smap μ (Ss.getD (home hf Ss.length s) []) s

theorem hsmap_look (μ : Mem) (Ss : List (List KV)) (k : List Byte) : hlook (hcfg bs vsz hf μ) Ss k = hsmap hf μ Ss (μ (leVal k)) :=
  smap_lookup (bs := bs) (vsz := vsz) μ _ k

theorem hsmap_off {μ : Mem} {Ss : List (List KV)} {s : List Byte} (h : ∀ a, μ a ≠ s) : hsmap hf μ Ss s = none := Strmap.smap_off h

theorem hsmap_ext {μ : Mem} {Ss : List (List KV)} {M : SMap} (h1 : ∀ s, (∀ a, μ a ≠ s) → M s = none)
    (h2 : ∀ k, hlook (hcfg bs vsz hf μ) Ss k = M (μ (leVal k))) : hsmap hf μ Ss = M := by
  funext s
  by_cases h : ∃ a, μ a = s
  · obtain ⟨a, rfl⟩ := h
    obtain ⟨k, rfl⟩ := ptr_exists a
    rw [← h2, hsmap_look]
  · have h : ∀ a, μ a ≠ s := fun a e => h ⟨a, e⟩
    rw [h1 s h, hsmap_off h]

theorem mem_getD {Ss : List (List KV)} {i : Nat} {e : KV} (h : e ∈ Ss.getD i []) : ∃ S ∈ Ss, e ∈ S := by
  by_cases hi : i < Ss.length
  · rw [Bmap.getD_lt hi] at h; exact ⟨_, List.getElem_mem hi, h⟩
  · simp [List.getD_eq_getElem?_getD, List.getElem?_eq_none (Nat.le_of_not_lt hi)] at h

theorem hsmap_move {μ μ' : Mem} {Ss : List (List KV)} (h : ∀ S ∈ Ss, ∀ e ∈ S, μ' (leVal e.1) = μ (leVal e.1)) :
    hsmap hf μ' Ss = hsmap hf μ Ss := by
  funext s
  unfold hsmap
  rw [Strmap.smap_move (fun e he => by obtain ⟨S, hS, he⟩ := mem_getD he; exact h S hS e he)]

theorem hview_move {μ μ' : Mem} {h : List BM} {Ss : List (List KV)} (hv : HView (hcfg bs vsz hf μ) h Ss)
    (hm : ∀ S ∈ Ss, ∀ e ∈ S, μ' (leVal e.1) = μ (leVal e.1)) : HView (hcfg bs vsz hf μ') h Ss := by
  refine ⟨hv.len, hv.pos, hv.small, fun i hi => ?_, fun i hi e he => ?_⟩
  · exact view_move (hv.view i hi) (fun e he => hm _ (List.getElem_mem _) e he)
  · have h1 : (hf (μ (leVal e.1))).toNat % h.length = i := hv.home i hi e he
    show (hf (μ' (leVal e.1))).toNat % h.length = i
    rw [hm _ (List.getElem_mem hi) e he]; exact h1

theorem run_spec (hbs : BsearchOk bs) (hv0 : 0 < vsz) : ∀ (ops : List (Mem × Op)) (μ : Mem) (h : List BM) (Ss : List (List KV)) (n : Nat),
    HView (hcfg bs vsz hf μ) h Ss → SizeLe Ss n → n + ops.length < 2^32 → (2 * (n + ops.length) + 4) * vsz < 2^64 →
    (∀ q ∈ ops, OpOk (hcfg bs vsz hf q.1).toCfg q.2) → Stable (hcfg bs vsz hf) μ h ops →
    ∃ h' rs Ss' μ', run (hcfg bs vsz hf) h ops = .ok (h', rs) ∧ Steps (hsmap hf μ Ss) ops (hsmap hf μ' Ss') rs ∧
      HView (hcfg bs vsz hf μ') h' Ss' := by
  intro ops
  induction ops with
  | nil => intro μ h Ss n hV _ _ _ _ _; exact ⟨h, [], Ss, μ, rfl, .nil, hV⟩
  | cons q ops ih =>
    obtain ⟨μ1, op⟩ := q
    intro μ h Ss n hV hn hk hv hop hst
    simp only [List.length_cons] at hk hv
    obtain ⟨st1, st2⟩ := hst
    have hmv : ∀ S ∈ Ss, ∀ e ∈ S, μ1 (leVal e.1) = μ (leVal e.1) := by
      intro S hS e he
      obtain ⟨j, hj, rfl⟩ := List.getElem_of_mem hS
      obtain ⟨i, hi, rfl⟩ := List.getElem_of_mem he
      have hjh : j < h.length := by rw [hV.len]; exact hj
      have hVj := hV.view j hjh
      have hle := hn _ hS
      have hkc : h[j].keys.count = Ss[j].length := by rw [hVj.keys.count]; simp
      refine st1 h[j] (List.getElem_mem _) i _ (by omega) ?_
      have := Tglist.get_spec hVj.keys (show h[j].keys.count * 8 < 2^64 by omega) (i := i) (by simpa using hi)
      rw [List.getElem_map] at this
      exact this
    have h1 := hview_move hV hmv
    have hM : hsmap hf μ1 Ss = hsmap hf μ Ss := hsmap_move hmv
    obtain ⟨h', r, Ss1, s1, s2, s3, s4, _⟩ := Bmap.hstep_spec (hcfg_ok hbs hv0 μ1) h1 hn (by omega) (show (2 * n + 4) * 8 < _ by omega)
      (show (2 * n + 4) * vsz < _ from mul_lt_of hv (by omega)) op (hop _ List.mem_cons_self)
    have hstep : Step (hsmap hf μ Ss) (μ1, op) (hsmap hf μ1 Ss1) r := by
      rw [← hM]
      have look : ∀ k, hlook (hcfg bs vsz hf μ1) Ss k = hsmap hf μ1 Ss (μ1 (leVal k)) := hsmap_look μ1 Ss
      have off : ∀ s, (∀ a, μ1 a ≠ s) → hsmap hf μ1 Ss s = none := fun s => hsmap_off
      have cz : ∀ {x y}, (hcfg bs vsz hf μ1).cmp x y = 0 ↔ μ1 (leVal x) = μ1 (leVal y) := fun {x y} => cmp_zero (bs := bs) (vsz := vsz)
      generalize hL : hlook (hcfg bs vsz hf μ1) Ss = L at s2 look
      generalize hL' : hlook (hcfg bs vsz hf μ1) Ss1 = L' at s2
      cases s2 with
      | @insert k v a1 a2 =>
        rw [hsmap_ext (Ss := Ss1) (bs := bs) (vsz := vsz) (M := upd (hsmap hf μ1 Ss) (μ1 (leVal k)) v)
          (fun s hs => by rw [upd, if_neg (fun e => hs _ e.symm), off s hs])
          (fun k' => by
            rw [hL', Bmap.Spec.upd, upd]
            by_cases h : μ1 (leVal k') = μ1 (leVal k)
            · rw [if_pos (cz.2 h), if_pos h]
            · rw [if_neg (fun hh => h (cz.1 hh)), if_neg h, look])]
        exact .insert
      | @insertFail k v a1 a2 h1 h2 =>
        rw [hsmap_ext (Ss := Ss1) (bs := bs) (vsz := vsz) (M := hsmap hf μ1 Ss) off (fun k' => by rw [hL', look])]
        exact .insertFail (by rw [← look]; exact h1) h2
      | @get k =>
        rw [hsmap_ext (Ss := Ss1) (bs := bs) (vsz := vsz) (M := hsmap hf μ1 Ss) off (fun k' => by rw [hL', look]), look]
        exact .get
      | @contains k =>
        rw [hsmap_ext (Ss := Ss1) (bs := bs) (vsz := vsz) (M := hsmap hf μ1 Ss) off (fun k' => by rw [hL', look]), look]
        exact .contains
      | @del k =>
        rw [hsmap_ext (Ss := Ss1) (bs := bs) (vsz := vsz) (M := rem (hsmap hf μ1 Ss) (μ1 (leVal k)))
          (fun s hs => by rw [rem, if_neg (fun e => hs _ e.symm), off s hs])
          (fun k' => by
            rw [hL', Bmap.Spec.rem, rem]
            by_cases h : μ1 (leVal k') = μ1 (leVal k)
            · rw [if_pos (cz.2 h), if_pos h]
            · rw [if_neg (fun hh => h (cz.1 hh)), if_neg h, look]), look]
        exact .del
    obtain ⟨h2, rs, S2, μ2, r1, r2, r3⟩ := ih μ1 h' Ss1 (n + 1) s3 s4 (by omega) (mul_lt_of hv (by omega))
      (fun q hq => hop q (List.mem_cons_of_mem _ hq)) (st2 _ _ s1)
    refine ⟨h2, r :: rs, S2, μ2, ?_, .cons hstep r2, r3⟩
    rw [run, s1, ok_bind]
    simp only
    rw [r1]; rfl

/-! ### Keys that change: only the bucket that is looked into matters -/

section one
variable {c : HCfg} {h : List BM} {b : Nat} {k : List Byte} {S : List KV}

theorem buckindex_at (hb : (c.hash k).toNat % h.length = b) (h0 : 0 < h.length) : Bmap.buckindex c h k = .ok (BitVec.ofNat 64 b) := by
  unfold Bmap.buckindex
  rw [if_neg (by omega), hb]; rfl

theorem hfind_at (hc : CfgOk c.toCfg) (hb : (c.hash k).toNat % h.length = b) (hl : b < h.length) (hs : h.length < 2^32)
    (hV : View c.toCfg h[b] S) (hS : S.length < 2^32) (hk : S.length * c.ksz < 2^64) :
    (∃ (i : Nat) (hi : i < S.length), Bmap.hfind c h k = .ok (mkIter b i) ∧ c.cmp k S[i].1 = 0 ∧ lookup c.cmp S k = some S[i].2) ∨
    (Bmap.hfind c h k = .ok (-1#64) ∧ (∀ e ∈ S, c.cmp k e.1 ≠ 0) ∧ lookup c.cmp S k = none) := by
  have hcnt : h[b].keys.count = S.length := by rw [hV.keys.count]; simp
  have e : Bmap.hfind c h k = (do let r ← Bmap.find c.toCfg h[b] k; pure (mkIter b 0 ||| Bmap.idx64 r)) := by
    unfold Bmap.hfind
    rw [buckindex_at hb (by omega)]
    simp only [ok_bindE]
    rw [Bmap.makeBucket_eq (by omega), Bmap.iterBucket_mk (by omega) (by omega), Bmap.bucket_spec hl]
    rfl
  rcases Bmap.find_spec hc hV (by rw [hcnt]; exact hk) k with ⟨i, hi, f1, f2, f3⟩ | ⟨f1, f2, f3⟩
  · refine .inl ⟨i, hi, ?_, f2, f3⟩
    rw [e, f1, ok_bind, ← Bmap.makeBucket_eq (by omega)]
    exact congrArg _ (Bmap.makeBucket_or (by omega) (by omega))
  · refine .inr ⟨?_, f2, f3⟩
    rw [e, f1, ok_bind]
    simp only [Bmap.idx64, Bmap.or_neg_one, pure_eq_ok]

theorem hget_at (hc : CfgOk c.toCfg) (hb : (c.hash k).toNat % h.length = b) (hl : b < h.length) (hs : h.length < 2^32)
    (hV : View c.toCfg h[b] S) (hS : S.length < 2^32) (hk : S.length * c.ksz < 2^64) (hv : S.length * c.vsz < 2^64) :
    Bmap.hget c h k = .ok (lookup c.cmp S k) := by
  have hcnt : h[b].values.count = S.length := by rw [hV.values.count]; simp
  unfold Bmap.hget
  rcases hfind_at hc hb hl hs hV hS hk with ⟨i, hi, f1, f2, f3⟩ | ⟨f1, f2, f3⟩
  · rw [f1, f3]
    simp only [ok_bindE, Bmap.mkIter_ne (b := b) (i := i) (by omega) (by omega), Bool.false_eq_true, if_false]
    unfold Bmap.hgetval Bmap.getval
    rw [Bmap.iterBucket_mk (by omega) (by omega), Bmap.bucket_spec hl, Bmap.iterIndex_mk (by omega) (by omega)]
    simp only [ok_bindE]
    rw [Tglist.get_spec hV.values (by rw [hcnt]; exact hv) (i := i) (by simpa using hi)]
    simp [pure_eq_ok]
  · rw [f1, f3]
    simp only [ok_bindE, Bmap.isNone_neg, if_true, pure_eq_ok]

/-- Inserting into an empty bucket, or one whose only entry compares equal. -/
theorem hinsert_at (hc : CfgOk c.toCfg) (hb : (c.hash k).toNat % h.length = b) (hl : b < h.length) (hs : h.length < 2^32)
    (hk8 : c.ksz = 8) (hvs : c.vsz < 2^59) (w : Option (List Byte))
    (hV : View c.toCfg h[b] (w.toList.map fun v => (k, v))) (f1 f2 : Nat → Byte) (v : List Byte) (hk : k.length = 8) (hv : v.length = c.vsz) :
    ∃ bm it, Bmap.hinsert c (some f1) (some f2) h k v = .ok (h.set b bm, it) ∧ Bmap.isNone it = false ∧ View c.toCfg bm [(k, v)] := by
  have hlen : (w.toList.map fun v => (k, v)).length ≤ 1 := by cases w <;> simp
  generalize hSd : (w.toList.map fun v => (k, v)) = S at hV hlen
  have hcnt : h[b].keys.count = S.length := by rw [hV.keys.count]; simp
  have hcntv : h[b].values.count = S.length := by rw [hV.values.count]; simp
  have hm : S.length * c.vsz < 2^64 := Nat.lt_of_le_of_lt (Nat.mul_le_mul_right _ hlen) (by omega)
  have hm2 : (2 * S.length + 4) * c.vsz < 2^64 := Nat.lt_of_le_of_lt (Nat.mul_le_mul_right (m := 6) _ (by omega)) (by omega)
  unfold Bmap.hinsert
  rcases hfind_at hc hb hl hs hV (by omega) (by rw [hk8]; omega) with ⟨i, hi, e1, _⟩ | ⟨e1, e2, _⟩
  · have hne : Bmap.isNone (mkIter b i) = false := Bmap.mkIter_ne (by omega) (by omega)
    rw [e1]
    simp only [ok_bindE, hne, Bool.false_eq_true, if_false]
    obtain ⟨vs, s1, s2, _⟩ := Bmap.set_view hc hV (by rw [hcntv]; exact hm) hi v hv
    unfold Bmap.hsetvalue
    rw [Bmap.iterBucket_mk (by omega) (by omega), Bmap.bucket_spec hl, Bmap.iterIndex_mk (by omega) (by omega)]
    simp only [ok_bindE, s1, pure_eq_ok]
    refine ⟨_, _, rfl, hne, ?_⟩
    cases w with
    | none => simp at hSd; subst hSd; simp at hi
    | some w =>
      simp at hSd; subst hSd
      simp only [List.length_cons, List.length_nil] at hi
      obtain rfl : i = 0 := by omega
      simpa using s2
  · rw [e1]
    simp only [ok_bindE, Bmap.isNone_neg, if_true]
    have hnil : S = [] := by
      cases w with
      | none => simpa using hSd.symm
      | some w =>
        simp at hSd
        exact absurd (hc.cmp.refl k) (e2 (k, w) (by rw [← hSd]; simp))
    subst hnil
    unfold Bmap.hinsert_nocheck
    rw [buckindex_at hb (by omega)]
    simp only [ok_bindE]
    rw [Bmap.makeBucket_eq (by omega), Bmap.iterBucket_mk (by omega) (by omega), Bmap.bucket_spec hl]
    simp only [ok_bindE]
    rcases Bmap.nocheck_spec hc hV (by rw [hcnt, hk8]; decide) (by rw [hcnt]; exact hm2) (some f1) (some f2) k v (by rw [hk8]; exact hk) hv e2
      with ⟨bm, p, _, _, r1, r2, h1, _⟩ | ⟨h1, _⟩ | ⟨_, _, _, h1, _⟩
    · rw [r1]
      simp only [ok_bindE, pure_eq_ok, Bmap.idx64]
      refine ⟨_, _, rfl, ?_, by simpa using h1⟩
      simp only [List.length_nil] at r2
      rw [← Bmap.makeBucket_eq (by omega), Bmap.makeBucket_or (by omega) (by omega)]
      exact Bmap.mkIter_ne (by omega) (by omega)
    · cases h1
    · cases h1

end one

/-- A map in which every entry has the same pointer as its key: `w i` is the value in bucket `i`. -/
structure Same (bs : List Byte → List (List Byte) → (List Byte → List Byte → Int) → Option Nat) (vsz n : Nat) (k : List Byte)
    (w : Nat → Option (List Byte)) (h : List BM) : Prop where
  len : h.length = n
  view : ∀ μ i (hi : i < h.length), View (cfg bs vsz μ) h[i] ((w i).toList.map fun v => (k, v))

theorem view_any {μ : Mem} {b : BM} {k : List Byte} {w : Option (List Byte)} (h : View (cfg bs vsz μ) b (w.toList.map fun v => (k, v))) (μ' : Mem) :
    View (cfg bs vsz μ') b (w.toList.map fun v => (k, v)) :=
  ⟨h.keys, h.values, by cases w <;> simp⟩

theorem same_init (hbs : BsearchOk bs) (hv0 : 0 < vsz) (n : Nat) (k : List Byte) : Same bs vsz n k (fun _ => none) (Bmap.hinit n) := by
  refine ⟨by simp [Bmap.hinit], fun μ i hi => ?_⟩
  simp only [Bmap.hinit, List.getElem_replicate]
  exact Bmap.init_view (cfg_ok hbs hv0 μ)

theorem home_lt {n : Nat} (h0 : 0 < n) (s : List Byte) : home hf n s < n := Nat.mod_lt _ h0

theorem same_insert (hbs : BsearchOk bs) (hv0 : 0 < vsz) (hvs : vsz < 2^59) {n : Nat} (h0 : 0 < n) (hn : n < 2^32) {k : List Byte}
    {w : Nat → Option (List Byte)} {h : List BM} (hS : Same bs vsz n k w h) (μ : Mem) (f1 f2 : Nat → Byte) (v : List Byte) (hk : k.length = 8)
    (hv : v.length = vsz) :
    ∃ h' it, Bmap.hinsert (hcfg bs vsz hf μ) (some f1) (some f2) h k v = .ok (h', it) ∧ Bmap.isNone it = false ∧
      Same bs vsz n k (fun i => if i = home hf n (μ (leVal k)) then some v else w i) h' := by
  have hl : home hf n (μ (leVal k)) < h.length := by rw [hS.len]; exact home_lt h0 _
  obtain ⟨bm, it, e, e1, hv'⟩ := hinsert_at (c := hcfg bs vsz hf μ) (b := home hf n (μ (leVal k))) (cfg_ok hbs hv0 μ)
    (by show _ % _ = _; rw [hS.len]; rfl) hl (by rw [hS.len]; exact hn) rfl hvs _ (hS.view μ _ hl) f1 f2 v hk hv
  refine ⟨_, it, e, e1, by rw [List.length_set, hS.len], fun μ' i hi => ?_⟩
  rw [List.getElem_set]
  by_cases hh : home hf n (μ (leVal k)) = i
  · simp only [if_pos hh, if_pos hh.symm]
    exact view_any (w := some v) hv' μ'
  · simp only [if_neg hh, if_neg (fun e : i = _ => hh e.symm)]
    exact hS.view μ' i (by simpa using hi)

theorem same_get (hbs : BsearchOk bs) (hv0 : 0 < vsz) (hvs : vsz < 2^59) {n : Nat} (h0 : 0 < n) (hn : n < 2^32) {k : List Byte}
    {w : Nat → Option (List Byte)} {h : List BM} (hS : Same bs vsz n k w h) (μ : Mem) (q : List Byte) :
    Bmap.hget (hcfg bs vsz hf μ) h q = .ok (if μ (leVal q) = μ (leVal k) then w (home hf n (μ (leVal k))) else none) := by
  have hl : home hf n (μ (leVal q)) < h.length := by rw [hS.len]; exact home_lt h0 _
  have hlen : ((w (home hf n (μ (leVal q)))).toList.map fun v => (k, v)).length ≤ 1 := by cases w (home hf n (μ (leVal q))) <;> simp
  rw [hget_at (c := hcfg bs vsz hf μ) (b := home hf n (μ (leVal q))) (cfg_ok hbs hv0 μ)
    (by show _ % _ = _; rw [hS.len]; rfl) hl (by rw [hS.len]; exact hn) (hS.view μ _ hl) (by omega) (by show _ * 8 < _; omega)
    (show _ * vsz < _ from Nat.lt_of_le_of_lt (Nat.mul_le_mul_right _ hlen) (by omega))]
  refine congrArg _ ((smap_lookup (bs := bs) (vsz := vsz) μ _ q).trans ?_)
  unfold smap
  by_cases hq : μ (leVal q) = μ (leVal k)
  · rw [if_pos hq, hq]
    cases w (home hf n (μ (leVal k))) with
    | none => rfl
    | some v => simp
  · rw [if_neg hq]
    cases w (home hf n (μ (leVal q))) with
    | none => rfl
    | some v => simp [hq]

/-- Value of the last insertion into bucket `i`. -/
def lastIn (hf : List Byte → BitVec 32) (n : Nat) (k : List Byte) (w : Nat → Option (List Byte)) : List (Mem × List Byte) → Nat → Option (List Byte)
  | [] => w
  | x :: xs => lastIn hf n k (fun i => if i = home hf n (x.1 (leVal k)) then some x.2 else w i) xs

theorem lastIn_eq (hf : List Byte → BitVec 32) (n : Nat) (k : List Byte) : ∀ (xs : List (Mem × List Byte)) (w : Nat → Option (List Byte)) (i : Nat),
    lastIn hf n k w xs i = (((xs.filter fun x => home hf n (x.1 (leVal k)) = i).getLast?).map Prod.snd).or (w i)
  | [], w, i => by simp [lastIn]
  | x :: xs, w, i => by
    rw [lastIn, lastIn_eq hf n k xs]
    by_cases hx : home hf n (x.1 (leVal k)) = i
    · rw [List.filter_cons_of_pos (by simpa using hx), if_pos hx.symm]
      cases hl : (xs.filter fun x => home hf n (x.1 (leVal k)) = i) with
      | nil => simp
      | cons y ys =>
        rw [List.getLast?_cons_cons, List.getLast?_eq_some_getLast (by simp)]
        rfl
    · rw [List.filter_cons_of_neg (by simpa using hx), if_neg (fun e => hx e.symm)]

theorem same_run (hbs : BsearchOk bs) (hv0 : 0 < vsz) (hvs : vsz < 2^59) {n : Nat} (h0 : 0 < n) (hn : n < 2^32) {k : List Byte}
    (hk : k.length = 8) (f1 f2 : Nat → Byte) : ∀ (xs : List (Mem × List Byte)) (w : Nat → Option (List Byte)) (h : List BM), Same bs vsz n k w h →
    (∀ x ∈ xs, x.2.length = vsz) →
    ∃ h', run (hcfg bs vsz hf) h (xs.map fun x => (x.1, .insert k x.2 (some f1) (some f2))) = .ok (h', xs.map fun _ => .iter false) ∧
      Same bs vsz n k (lastIn hf n k w xs) h'
  | [], w, h, hS, _ => ⟨h, rfl, hS⟩
  | x :: xs, w, h, hS, hx => by
    obtain ⟨h1, it, e1, e2, s1⟩ := same_insert (hf := hf) hbs hv0 hvs h0 hn hS x.1 f1 f2 x.2 hk (hx x (by simp))
    obtain ⟨h2, e3, s2⟩ := same_run hbs hv0 hvs h0 hn hk f1 f2 xs _ h1 s1 (fun y hy => hx y (by simp [hy]))
    refine ⟨h2, ?_, s2⟩
    rw [List.map_cons, run, Bmap.hstep, e1]
    simp only [ok_bindE, pure_eq_ok]
    rw [e3]
    simp only [ok_bindE, e2, List.map_cons]

/-- `Stable` by evaluation, for examples. -/
def stableB (c : Mem → HCfg) : Mem → List BM → List (Mem × Op) → Bool
  | _, _, [] => true
  | μ, h, (μ', op) :: ops =>
    (h.all fun b => (List.range b.keys.count).all fun i => match Bmap.getkey (c μ).toCfg b i with
      | .ok k => μ' (leVal k) == μ (leVal k) | .error _ => true) &&
    match Bmap.hstep (c μ') h op with | .ok (h', _) => stableB c μ' h' ops | .error _ => true

theorem stableB_ok (c : Mem → HCfg) : ∀ (ops : List (Mem × Op)) (μ : Mem) (h : List BM), stableB c μ h ops = true → Stable c μ h ops
  | [], _, _, _ => trivial
  | (μ', op) :: ops, μ, h, hs => by
    rw [stableB, Bool.and_eq_true] at hs
    refine ⟨fun b hb i k hi hk => ?_, fun h' r hst => ?_⟩
    · have := List.all_eq_true.1 (List.all_eq_true.1 hs.1 b hb) i (List.mem_range.2 hi)
      rw [hk] at this
      simpa using this
    · have := hs.2
      rw [hst] at this
      exact stableB_ok c ops μ' h' this

end Ulz.Hstrmap

import Verif.Spec.Bench
import Verif.Proofs.Strmap
import Verif.Proofs.Hbmap
import Verif.Proofs.Ibmap
import Verif.Proofs.Numbers
/-! Lemmas about the benchmark programs. -/
namespace Ulz.Bench
open Ulz.Bmap (Cfg HCfg BM KV HView SizeLe bidx hlook)
open Ulz.Bmap.Spec (View lookup CfgOk HCfgOk BsearchOk)
open Ulz.Strmap (Mem cfg cfg_ok cmp_zero view_move)
open Ulz.Tglist (leBytes leVal leVal_leBytes leBytes_length)
open Ulz.Numbers.Spec (dec digitsOf ofDigits)
open Ulz.Sblist (mul_lt_of)
open Spec

/-! ### Numerals -/

theorem map_inj : ∀ {xs ys : List Nat}, (∀ d ∈ xs, d < 10) → (∀ d ∈ ys, d < 10) →
    xs.map (fun d => BitVec.ofNat 8 (48 + d)) = ys.map (fun d => BitVec.ofNat 8 (48 + d)) → xs = ys
  | [], [], _, _, _ => rfl
  | [], _ :: _, _, _, h => by simp at h
  | _ :: _, [], _, _, h => by simp at h
  | x :: xs, y :: ys, hx, hy, h => by
    simp only [List.map_cons, List.cons.injEq] at h
    have h1 := hx x (by simp)
    have h2 := hy y (by simp)
    have h3 := congrArg BitVec.toNat h.1
    simp only [BitVec.toNat_ofNat] at h3
    rw [show x = y by omega, map_inj (fun d hd => hx d (by simp [hd])) (fun d hd => hy d (by simp [hd])) h.2]

theorem dec_inj {i j : Nat} (h : dec i = dec j) : i = j := by
  have := map_inj (Numbers.digitsOf_lt (by omega)) (Numbers.digitsOf_lt (by omega)) h
  rw [← Numbers.ofDigits_digitsOf 10 i (by omega), this, Numbers.ofDigits_digitsOf]

theorem dec_zero : dec 0 = [48] := by
  unfold dec digitsOf
  rfl

/-- No numeral sorts before that of 0. -/
theorem dec_least (j : Nat) : ¬ Strmap.strcmp (dec j) (dec 0) < 0 := by
  rw [dec_zero]
  obtain ⟨x, xs, hx⟩ := List.exists_cons_of_ne_nil (Numbers.digitsOf_ne_nil 10 j (by omega))
  have hlt := Numbers.digitsOf_lt (b := 10) (n := j) (by omega) x (by rw [hx]; simp)
  have hd : dec j = BitVec.ofNat 8 (48 + x) :: xs.map (fun d => BitVec.ofNat 8 (48 + d)) := by
    unfold dec; rw [hx]; rfl
  rw [hd, Strmap.strcmp]
  split
  · cases xs with
    | nil => simp [Strmap.strcmp]
    | cons a l => simp [Strmap.strcmp]
  · rw [if_neg]
    · decide
    · simp only [BitVec.toNat_ofNat]
      show ¬ (48 + x) % 2^8 < 48
      omega

/-! ### Addresses and memory -/

variable {e : Env} {N : Nat}

theorem put_same (μ : Mem) (a : Nat) (s : List Byte) : put μ a s a = s := by simp [put]
theorem put_other {μ : Mem} {a x : Nat} {s : List Byte} (h : x ≠ a) : put μ a s x = μ x := by simp [put, h]

theorem leVal_ptr {a : Nat} (h : a < 2^64) : leVal (ptr a) = a := leVal_leBytes 8 a (by simpa using h)
theorem leVal_int {a : Nat} (h : a < 2^32) : leVal (int4 a) = a := leVal_leBytes 4 a (by simpa using h)

/-- The i-th entry. -/
def ent (e : Env) (i : Nat) : KV := (ptr (e.key i), int4 i)

/-- The first `n` copies are in place. -/
def Kept (e : Env) (n : Nat) (μ : Mem) : Prop := ∀ j, j < n → μ (e.key j) = dec j

/-- What the loops need to know about a map `s` that holds the first `n` entries. -/
structure Good {σ : Type} (A : Api σ) (e : Env) (N : Nat) (Inv : Nat → Mem → σ → Prop) : Prop where
  move : ∀ {n μ μ' s}, n ≤ N → Inv n μ s → (∀ j, j < n → μ' (e.key j) = μ (e.key j)) → Inv n μ' s
  ins : ∀ {n μ s} a1 a2, n < N → Inv n μ s → Kept e (n + 1) μ →
    ∃ s', A.nocheck μ (some a1) (some a2) s (ptr (e.key n)) (int4 n) = .ok s' ∧ Inv (n + 1) μ s'
  has : ∀ {n μ s j}, n ≤ N → Inv n μ s → Kept e n μ → j < n → μ e.buf = dec j → A.contains μ s (ptr e.buf) = .ok true
  get : ∀ {n μ s j}, n ≤ N → Inv n μ s → Kept e n μ → j < n → μ e.buf = dec j → A.get μ s (ptr e.buf) = .ok (some (int4 j))

section loops
variable {σ : Type} {A : Api σ} {Inv : Nat → Mem → σ → Prop} (G : Good A e N Inv) (he : EnvOk e N)
include G he

theorem fill_spec (al : Nat → (Nat → Byte) × (Nat → Byte)) : ∀ (n i : Nat) (μ : Mem) (s : σ), i + n ≤ N → Inv i μ s → Kept e i μ →
    ∃ μ' s', fill A e al n i μ s = .ok (μ', s') ∧ Inv (i + n) μ' s' ∧ Kept e (i + n) μ'
  | 0, i, μ, s, _, h, hk => ⟨μ, s, rfl, h, hk⟩
  | n + 1, i, μ, s, hn, h, hk => by
    have hki := he.key i (by omega)
    have hne : ∀ j, j < i → e.key j ≠ e.key i := fun j hj hh => by have := he.inj j (by omega) i (by omega) hh; omega
    let μ2 := put (put μ e.buf (dec i)) (e.key i) (put μ e.buf (dec i) e.buf)
    have hm : ∀ j, j < i → μ2 (e.key j) = μ (e.key j) := fun j hj => by
      show put _ _ _ _ = _
      rw [put_other (hne j hj), put_other (he.key j (by omega)).2.1]
    have hk2 : Kept e (i + 1) μ2 := by
      intro j hj
      by_cases hji : j = i
      · subst hji
        show put _ _ _ _ = _
        rw [put_same, put_same]
      · rw [hm j (by omega), hk j (by omega)]
    obtain ⟨s', r1, r2⟩ := G.ins (al i).1 (al i).2 (by omega) (G.move (by omega) h hm) hk2
    obtain ⟨μ', s'', t1, t2, t3⟩ := fill_spec al n (i + 1) μ2 s' (by omega) r2 hk2
    refine ⟨μ', s'', ?_, by rwa [show i + (n + 1) = i + 1 + n by omega], by rwa [show i + (n + 1) = i + 1 + n by omega]⟩
    rw [fill]
    rw [show A.nocheck _ _ _ _ _ _ = .ok s' from r1, ok_bind]
    exact t1

theorem moved {μ : Mem} {s : σ} {n : Nat} (hn : n ≤ N) (h : Inv n μ s) (hk : Kept e n μ) (t : List Byte) :
    Inv n (put μ e.buf t) s ∧ Kept e n (put μ e.buf t) := by
  have hm : ∀ j, j < n → put μ e.buf t (e.key j) = μ (e.key j) := fun j hj => put_other (he.key j (by omega)).2.1
  exact ⟨G.move hn h hm, fun j hj => by rw [hm j hj, hk j hj]⟩

theorem check_spec : ∀ (n i : Nat) (μ : Mem) (s : σ), i + n ≤ N → Inv N μ s → Kept e N μ →
    ∃ μ', check A e n i μ s = .ok (some μ') ∧ Inv N μ' s ∧ Kept e N μ'
  | 0, i, μ, s, _, h, hk => ⟨μ, rfl, h, hk⟩
  | n + 1, i, μ, s, hn, h, hk => by
    obtain ⟨h1, h2⟩ := moved G he (Nat.le_refl _) h hk (dec i)
    obtain ⟨μ', t1, t2⟩ := check_spec n (i + 1) _ s (by omega) h1 h2
    refine ⟨μ', ?_, t2⟩
    rw [check]
    rw [G.has (Nat.le_refl _) h1 h2 (j := i) (by omega) (put_same _ _ _), ok_bind, if_pos rfl]
    exact t1

theorem seek_spec (hN : N ≤ 2^31) : ∀ (vals : List Nat) (res : Nat) (μ : Mem) (s : σ), (∀ v ∈ vals, v < N) → res < 2^31 → Inv N μ s → Kept e N μ →
    seek A e vals res μ s = if res + vals.sum < 2^31 then .ok (res + vals.sum) else .error .overflow
  | [], res, μ, s, _, hr, _, _ => by simp [seek, hr, pure_eq_ok]
  | v :: vals, res, μ, s, hv, hr, h, hk => by
    have hv0 := hv v (by simp)
    obtain ⟨h1, h2⟩ := moved G he (Nat.le_refl _) h hk (dec v)
    rw [seek]
    rw [G.get (Nat.le_refl _) h1 h2 hv0 (put_same _ _ _), ok_bind]
    simp only [leVal_int (show v < 2^32 by omega)]
    rw [List.sum_cons]
    by_cases hh : res + v < 2^31
    · rw [if_pos hh, seek_spec hN vals (res + v) _ s (fun w hw => hv w (by simp [hw])) hh h1 h2, Nat.add_assoc]
    · rw [if_neg hh, if_neg (by omega)]

end loops

/-! ### The bmap -/

variable {bs : List Byte → List (List Byte) → (List Byte → List Byte → Int) → Option Nat}

/-- The entries `S` are the first `n`. -/
def Ents (e : Env) (n : Nat) (S : List KV) : Prop := S.Perm ((List.range n).map (ent e))

theorem Ents.length {n : Nat} {S : List KV} (h : Ents e n S) : S.length = n := by rw [List.Perm.length_eq h]; simp
theorem Ents.mem {n : Nat} {S : List KV} (h : Ents e n S) {x : KV} : x ∈ S ↔ ∃ j, j < n ∧ ent e j = x := by
  rw [List.Perm.mem_iff h]; simp

theorem Ents.insert {n p : Nat} {S : List KV} (h : Ents e n S) : Ents e (n + 1) (S.take p ++ ent e n :: S.drop p) := by
  unfold Ents
  refine List.perm_middle.trans ?_
  rw [List.take_append_drop, List.range_succ, List.map_append]
  refine (h.cons _).trans ?_
  exact (List.perm_append_comm (l₁ := [ent e n])).trans (.refl _)

def BInv (bs : List Byte → List (List Byte) → (List Byte → List Byte → Int) → Option Nat) (e : Env) (n : Nat) (μ : Mem) (b : BM) : Prop := ∃ S, View (cfg bs 4 μ) b S ∧ Ents e n S

theorem key_val (he : EnvOk e N) {j : Nat} (hj : j ≤ N) : leVal (ent e j).1 = e.key j := leVal_ptr (he.key j hj).1

theorem bmove (he : EnvOk e N) {n : Nat} {μ μ' : Mem} (hn : n ≤ N) {b : BM} {S : List KV} (h : View (cfg bs 4 μ) b S)
    (hS : ∀ x ∈ S, ∃ j, j < n ∧ ent e j = x) (hm : ∀ j, j < n → μ' (e.key j) = μ (e.key j)) : View (cfg bs 4 μ') b S := by
  refine view_move h fun x hx => ?_
  obtain ⟨j, hj, rfl⟩ := hS x hx
  rw [key_val he (by omega), hm j hj]

/-- A key that points to the numeral of `j`, against an entry. -/
theorem cmp_ent (he : EnvOk e N) {n : Nat} (hn : n ≤ N) {μ : Mem} (hk : Kept e n μ) {a j i : Nat} (ha : a < 2^64) (hj : μ a = dec j) (hi : i < n) :
    (cfg bs 4 μ).cmp (ptr a) (ent e i).1 = 0 ↔ i = j := by
  rw [cmp_zero, leVal_ptr ha, key_val he (by omega), hj, hk i hi]
  exact ⟨fun h => (dec_inj h).symm, fun h => by rw [h]⟩

theorem bgood (hbs : BsearchOk bs) (he : EnvOk e N) (hN : N ≤ 2^31) : Good (bapi bs) e N (BInv bs e) where
  move := by
    rintro n μ μ' b hn ⟨S, h, hS⟩ hm
    exact ⟨S, bmove he hn h (fun x hx => hS.mem.1 hx) hm, hS⟩
  ins := by
    rintro n μ b a1 a2 hn ⟨S, h, hS⟩ hk
    have hc : b.keys.count = n := by rw [h.keys.count]; simp [hS.length]
    have hkn := he.key n (by omega)
    rcases Bmap.nocheck_spec (cfg_ok hbs (by decide) μ) h (show (2 * b.keys.count + 4) * 8 < _ by omega)
      (show (2 * b.keys.count + 4) * 4 < _ by omega) (some a1) (some a2) (ptr (e.key n)) (int4 n) (leBytes_length _ _) (leBytes_length _ _)
      (fun x hx => by
        obtain ⟨j, hj, rfl⟩ := hS.mem.1 hx
        rw [Ne, cmp_ent (n := n) he (by omega) (fun j hj => hk j (by omega)) hkn.1 (hk n (by omega)) hj]
        omega) with ⟨b', p, _, _, r, _, hv, _⟩ | ⟨h0, _⟩ | ⟨_, _, _, h0, _⟩
    · refine ⟨b', ?_, _, hv, hS.insert⟩
      show (do pure (← Bmap.insert_nocheck (cfg bs 4 μ) _ _ b _ _).1) = _
      rw [r]; rfl
    · cases h0
    · cases h0
  has := by
    rintro n μ b j hn ⟨S, h, hS⟩ hk hj hb
    have hc : b.keys.count = n := by rw [h.keys.count]; simp [hS.length]
    show (do pure (← Bmap.find (cfg bs 4 μ) b _).isSome) = _
    rcases Bmap.find_spec (cfg_ok hbs (by decide) μ) h (show b.keys.count * 8 < _ by omega) (ptr e.buf) with ⟨i, hi, r, _⟩ | ⟨_, r, _⟩
    · rw [r]; rfl
    · exact absurd ((cmp_ent he hn hk he.buf hb hj).2 rfl) (r _ (hS.mem.2 ⟨j, hj, rfl⟩))
  get := by
    rintro n μ b j hn ⟨S, h, hS⟩ hk hj hb
    have hc : b.keys.count = n := by rw [h.keys.count]; simp [hS.length]
    show Bmap.get (cfg bs 4 μ) b _ = _
    rw [Bmap.get_spec (cfg_ok hbs (by decide) μ) h (show b.keys.count * 8 < _ by omega) (show b.keys.count * 4 < _ by omega)]
    rcases Bmap.find_spec (cfg_ok hbs (by decide) μ) h (show b.keys.count * 8 < _ by omega) (ptr e.buf) with ⟨i, hi, _, r1, r2⟩ | ⟨_, r, _⟩
    · rw [r2]
      obtain ⟨k, hk', hx⟩ := hS.mem.1 (List.getElem_mem hi)
      rw [← hx] at r1 ⊢
      rw [(cmp_ent he hn hk he.buf hb hk').1 r1]; rfl
    · exact absurd ((cmp_ent he hn hk he.buf hb hj).2 rfl) (r _ (hS.mem.2 ⟨j, hj, rfl⟩))

/-- Inserting "0" again puts the same value at the same, first, place. -/
theorem again (hbs : BsearchOk bs) (he : EnvOk e N) (hN : N ≤ 2^31) (h0 : 0 < N) {μ : Mem} {b : BM} (h : BInv bs e N μ b) (hk : Kept e N μ)
    (hz : μ (e.key N) = dec 0) (a1 a2 : Nat → Byte) :
    ∃ b', Bmap.insert (cfg bs 4 μ) (some a1) (some a2) b (ptr (e.key N)) (int4 0) = .ok (b', some 0) ∧ BInv bs e N μ b' := by
  obtain ⟨S, h, hS⟩ := h
  have hc : b.keys.count = N := by rw [h.keys.count]; simp [hS.length]
  have hcv : b.values.count = N := by rw [h.values.count]; simp [hS.length]
  have hkN := (he.key N (Nat.le_refl _)).1
  unfold Bmap.insert
  rcases Bmap.find_spec (cfg_ok hbs (by decide) μ) h (show b.keys.count * 8 < _ by omega) (ptr (e.key N)) with ⟨i, hi, r0, r1, r2⟩ | ⟨_, r, _⟩
  · rw [r0, ok_bind]
    simp only
    obtain ⟨vs, s1, s2, _⟩ := Bmap.set_view (cfg_ok hbs (by decide) μ) h (show b.values.count * 4 < _ by omega) hi (int4 0) (leBytes_length _ _)
    rw [show Tglist.set (cfg bs 4 μ).vsz b.values (int4 0) i = _ from s1, ok_bind]
    obtain ⟨j, hj, hx⟩ := hS.mem.1 (List.getElem_mem hi)
    have hj0 : j = 0 := by rw [← hx] at r1; exact (cmp_ent he (Nat.le_refl _) hk hkN hz hj).1 r1
    have hi0 : i = 0 := by
      rcases Nat.eq_zero_or_pos i with hh | hh
      · exact hh
      · exfalso
        have hlt := (List.pairwise_iff_getElem.1 h.sorted) 0 i (by omega) hi hh
        obtain ⟨k, hk', hy⟩ := hS.mem.1 (List.getElem_mem (show 0 < S.length by omega))
        rw [← hx, ← hy, hj0] at hlt
        have hlt : Strmap.strcmp (μ (leVal (ent e k).1)) (μ (leVal (ent e 0).1)) < 0 := hlt
        rw [key_val he (by omega), key_val he (by omega), hk k hk', hk 0 h0] at hlt
        exact dec_least k hlt
    have hset : S.set i (S[i].1, int4 0) = S := by
      have : (S[i].1, int4 0) = S[i] := by rw [← hx, hj0]; rfl
      rw [this]; exact List.set_getElem_self hi
    rw [hset] at s2
    refine ⟨⟨b.keys, vs⟩, by rw [hi0]; rfl, S, s2, hS⟩
  · exact absurd ((cmp_ent he (Nat.le_refl _) hk hkN hz h0).2 rfl) (r _ (hS.mem.2 ⟨0, h0, rfl⟩))

theorem ents_ptrs (he : EnvOk e N) {S : List KV} (h : Ents e N S) : (S.map Prod.fst).map leVal |>.Perm (keys e N) := by
  refine ((h.map Prod.fst).map leVal).trans ?_
  rw [List.map_map, List.map_map]
  unfold keys
  rw [show (List.range N).map ((leVal ∘ Prod.fst) ∘ ent e) = (List.range N).map e.key from
    List.map_congr_left fun j hj => key_val he (by have := List.mem_range.1 hj; omega)]

theorem bfini (he : EnvOk e N) (hN : N ≤ 2^31) {μ : Mem} {b : BM} (h : BInv bs e N μ b) (ka va : Nat) (live : List Nat) (hl : live.Nodup)
    (hf : Ibmap.Spec.Freeable (keys e N ++ [ka, va]) live) :
    ∃ live', Ibmap.fini (cfg bs 4 μ) b ka va 1 live = .ok live' ∧ ∀ a, a ∈ live' ↔ a ∈ live ∧ (a = 0 ∨ a ∉ keys e N ++ [ka, va]) := by
  obtain ⟨S, h, hS⟩ := h
  have hlen := hS.length
  rw [Ibmap.fini_eq h (show S.length * 8 < _ by omega) (show S.length * 4 < _ by omega)]
  have hp : ((Ibmap.Spec.ptrs (1 &&& 1 != 0) (cfg bs 4 μ).ksz (S.map Prod.fst)).reverse ++
      ((Ibmap.Spec.ptrs (1 &&& 2 != 0) (cfg bs 4 μ).vsz (S.map Prod.snd)).reverse ++ [ka, va])).Perm (keys e N ++ [ka, va]) := by
    show (((S.map Prod.fst).map leVal).reverse ++ ([] ++ [ka, va])).Perm _
    exact ((List.reverse_perm _).trans (ents_ptrs he hS)).append (.refl _)
  obtain ⟨live', r1, _, r2⟩ := Ibmap.freeAll_good _ _ hl ((Ibmap.freeable_perm hp).2 hf)
  exact ⟨live', r1, fun a => by rw [r2, hp.mem_iff]⟩

/-! ### The hbmap -/

theorem hcfg_ok (hbs : BsearchOk bs) (μ : Mem) : HCfgOk (hcfg bs μ) where
  toCfgOk := cfg_ok hbs (by decide) μ
  hash k k' h := by
    show x31 _ = x31 _
    rw [(cmp_zero (bs := bs) (vsz := 4)).1 h]

def HInv (bs : List Byte → List (List Byte) → (List Byte → List Byte → Int) → Option Nat) (nb : Nat) (e : Env) (n : Nat) (μ : Mem)
    (h : List BM) : Prop := ∃ Ss, HView (hcfg bs μ) h Ss ∧ h.length = nb ∧ Ents e n Ss.flatten

theorem sizes {n : Nat} {Ss : List (List KV)} (h : Ents e n Ss.flatten) : SizeLe Ss n := by
  intro S hS
  have := (List.sublist_flatten_of_mem hS).length_le
  rw [h.length] at this
  exact this

theorem flatten_set {Ss : List (List KV)} {b : Nat} (hb : b < Ss.length) {x : KV} {p : Nat} :
    (Ss.set b (Ss[b].take p ++ x :: Ss[b].drop p)).flatten.Perm (x :: Ss.flatten) := by
  rw [List.set_eq_take_append_cons_drop, if_pos hb]
  have : Ss.flatten = (Ss.take b).flatten ++ (Ss[b] ++ (Ss.drop (b + 1)).flatten) := by
    have h0 : Ss = Ss.take b ++ Ss[b] :: Ss.drop (b + 1) := by
      rw [← List.drop_eq_getElem_cons hb, List.take_append_drop]
    rw [← List.flatten_cons, ← List.flatten_append, ← h0]
  rw [this, List.flatten_append, List.flatten_cons]
  have h1 : (Ss[b].take p ++ x :: Ss[b].drop p).Perm (x :: Ss[b]) := by
    refine List.perm_middle.trans ?_
    rw [List.take_append_drop]
  refine (List.Perm.append_left _ (h1.append_right _)).trans ?_
  exact List.perm_middle

theorem hmove (he : EnvOk e N) {n : Nat} {μ μ' : Mem} (hn : n ≤ N) {h : List BM} {Ss : List (List KV)} (hv : HView (hcfg bs μ) h Ss)
    (hS : Ents e n Ss.flatten) (hm : ∀ j, j < n → μ' (e.key j) = μ (e.key j)) : HView (hcfg bs μ') h Ss := by
  have hin : ∀ i (hi : i < Ss.length), ∀ x ∈ Ss[i], ∃ j, j < n ∧ ent e j = x := fun i hi x hx =>
    hS.mem.1 (List.mem_flatten.2 ⟨Ss[i], List.getElem_mem hi, hx⟩)
  refine ⟨hv.len, hv.pos, hv.small, ?_, ?_⟩
  · intro i hi
    exact bmove he hn (hv.view i hi) (hin i (by rw [← hv.len]; exact hi)) hm
  · intro i hi x hx
    obtain ⟨j, hj, hh⟩ := hin i hi x hx
    have := hv.home i hi x hx
    rw [← hh] at this ⊢
    have h1 : (x31 (μ (leVal (ent e j).1))).toNat % h.length = i := this
    show (x31 (μ' (leVal (ent e j).1))).toNat % h.length = i
    rw [key_val he (by omega)] at h1 ⊢
    rw [hm j hj]; exact h1

theorem hent (hbs : BsearchOk bs) (he : EnvOk e N) {n : Nat} (hn : n ≤ N) {μ : Mem} (hk : Kept e n μ) {h : List BM} {Ss : List (List KV)}
    (hv : HView (hcfg bs μ) h Ss) (hS : Ents e n Ss.flatten) {a j : Nat} (ha : a < 2^64) (hj : j < n) (hb : μ a = dec j) :
    ∃ hl : bidx (hcfg bs μ) Ss (ptr a) < Ss.length, ent e j ∈ Ss[bidx (hcfg bs μ) Ss (ptr a)] := by
  refine ⟨Bmap.bidx_lt hv _, ?_⟩
  obtain ⟨S, hS1, hS2⟩ := List.mem_flatten.1 (hS.mem.2 ⟨j, hj, rfl⟩)
  obtain ⟨i, hi, rfl⟩ := List.getElem_of_mem hS1
  have hh := hv.home i hi _ hS2
  have hhash := (hcfg_ok hbs μ).hash (ptr a) (ent e j).1 ((cmp_ent (bs := bs) he hn hk ha hb hj).2 rfl)
  have hbi : bidx (hcfg bs μ) Ss (ptr a) = i := by
    unfold bidx
    rw [hhash, ← hv.len]; exact hh
  have key : ∀ k (hk : k < Ss.length), k = i → ent e j ∈ Ss[k] := by rintro k hk rfl; exact hS2
  exact key _ _ hbi

theorem hgood (hbs : BsearchOk bs) (he : EnvOk e N) (hN : N ≤ 2^31) (nb : Nat) : Good (hapi bs) e N (HInv bs nb e) where
  move := by
    rintro n μ μ' h hn ⟨Ss, hv, hl, hS⟩ hm
    exact ⟨Ss, hmove he hn hv hS hm, hl, hS⟩
  ins := by
    rintro n μ h a1 a2 hn ⟨Ss, hv, hl, hS⟩ hk
    have hkn := he.key n (by omega)
    have hsz := sizes hS
    have hbl := Bmap.bidx_lt hv (ptr (e.key n))
    generalize hbdef : bidx (hcfg bs μ) Ss (ptr (e.key n)) = b at hbl
    have hbh : b < h.length := by rw [hv.len]; exact hbl
    have hb32 : b < 2^32 := by have := hv.small; omega
    have hV := hv.view b hbh
    have hc : h[b].keys.count = Ss[b].length := by rw [hV.keys.count]; simp
    have hle := hsz Ss[b] (List.getElem_mem _)
    have hin : ∀ x ∈ Ss[b], ∃ j, j < n ∧ ent e j = x := fun x hx => hS.mem.1 (List.mem_flatten.2 ⟨Ss[b], List.getElem_mem _, hx⟩)
    rcases Bmap.nocheck_spec (hcfg_ok hbs μ).toCfgOk hV (show (2 * h[b].keys.count + 4) * 8 < _ by omega)
      (show (2 * h[b].keys.count + 4) * 4 < _ by omega) (some a1) (some a2) (ptr (e.key n)) (int4 n) (leBytes_length _ _) (leBytes_length _ _)
      (fun x hx => by
        obtain ⟨j, hj, rfl⟩ := hin x hx
        have := cmp_ent (bs := bs) (n := n) he (by omega) (fun j hj => hk j (by omega)) hkn.1 (hk n (by omega)) hj
        show ¬ (cfg bs 4 μ).cmp _ _ = 0
        rw [this]
        omega) with ⟨b', p, _, _, r, _, hv', _⟩ | ⟨h0, _⟩ | ⟨_, _, _, h0, _⟩
    · refine ⟨h.set b b', ?_, Ss.set b (Ss[b].take p ++ ent e n :: Ss[b].drop p), hv.set hbl hv' ?_, by simpa using hl, ?_⟩
      · show (do pure (← Bmap.hinsert_nocheck (hcfg bs μ) _ _ h _ _).1) = _
        unfold Bmap.hinsert_nocheck
        rw [Bmap.buckindex_spec hv, hbdef]
        simp only [ok_bindE]
        rw [Bmap.makeBucket_eq hb32, Bmap.iterBucket_mk hb32 (by omega), Bmap.bucket_spec hbh]
        simp only [ok_bindE]
        rw [r]
        rfl
      · intro x hx
        rcases List.mem_append.1 hx with hx | hx
        · exact hv.home b hbl x (List.mem_of_mem_take hx)
        · rcases List.mem_cons.1 hx with rfl | hx
          · rw [← hbdef, hv.len]; rfl
          · exact hv.home b hbl x (List.mem_of_mem_drop hx)
      · refine (flatten_set hbl).trans ?_
        have := Ents.insert (p := 0) hS
        rw [List.take_zero, List.drop_zero, List.nil_append] at this
        exact this
    · cases h0
    · cases h0
  has := by
    rintro n μ h j hn ⟨Ss, hv, hl, hS⟩ hk hj hb
    have hsz := sizes hS
    obtain ⟨h1, h2⟩ := hent hbs he hn hk hv hS he.buf hj hb
    show (do pure (!Bmap.isNone (← Bmap.hfind (hcfg bs μ) h _))) = _
    obtain ⟨hbl, ⟨i, hi, r, _⟩ | ⟨_, r, _⟩⟩ := Bmap.hfind_spec (hcfg_ok hbs μ) hv hsz (by omega) (show n * 8 < _ by omega) (ptr e.buf)
    · rw [r, ok_bind]
      have := hsz _ (List.getElem_mem hbl)
      have hsm := hv.small
      rw [hv.len] at hsm
      rw [Bmap.mkIter_ne (by omega) (by omega)]
      rfl
    · exact absurd ((cmp_ent (bs := bs) he hn hk he.buf hb hj).2 rfl) (r _ h2)
  get := by
    rintro n μ h j hn ⟨Ss, hv, hl, hS⟩ hk hj hb
    have hsz := sizes hS
    obtain ⟨h1, h2⟩ := hent hbs he hn hk hv hS he.buf hj hb
    show Bmap.hget (hcfg bs μ) h _ = _
    rw [Bmap.hget_spec (hcfg_ok hbs μ) hv hsz (by omega) (show n * 8 < _ by omega) (show n * 4 < _ by omega)]
    obtain ⟨hbl, ⟨i, hi, _, r1, r2⟩ | ⟨_, r, _⟩⟩ := Bmap.hfind_spec (hcfg_ok hbs μ) hv hsz (by omega) (show n * 8 < _ by omega) (ptr e.buf)
    · rw [r2]
      obtain ⟨k, hk', hx⟩ := hS.mem.1 (List.mem_flatten.2 ⟨_, List.getElem_mem hbl, List.getElem_mem hi⟩)
      rw [← hx] at r1 ⊢
      rw [(cmp_ent (bs := bs) he hn hk he.buf hb hk').1 r1]; rfl
    · exact absurd ((cmp_ent (bs := bs) he hn hk he.buf hb hj).2 rfl) (r _ h2)

theorem hfini_eq (μ : Mem) : ∀ (h : List BM) (Ss : List (List KV)) (arrs : List (Nat × Nat)),
    h.length = Ss.length → h.length = arrs.length → (∀ i (hi : i < h.length) (hi' : i < Ss.length), View (cfg bs 4 μ) h[i] Ss[i]) →
    (∀ S ∈ Ss, S.length ≤ 2^31) →
    ∃ G, (∀ live, hfini (cfg bs 4 μ) 1 h arrs live = Ibmap.freeAll G live) ∧
      G.Perm ((Ss.flatten.map Prod.fst).map leVal ++ arrs.flatMap fun a => [a.1, a.2])
  | [], [], [], _, _, _, _ => ⟨[], fun _ => rfl, .refl _⟩
  | b :: h, S :: Ss, a :: arrs, h1, h2, h3, h4 => by
    have hV := h3 0 (by simp) (by simp)
    simp only [List.getElem_cons_zero] at hV
    have hlen := h4 S (by simp)
    obtain ⟨G, g1, g2⟩ := hfini_eq μ h Ss arrs (by simpa using h1) (by simpa using h2)
      (fun i hi hi' => by have := h3 (i + 1) (by simpa using hi) (by simpa using hi'); simpa using this)
      (fun S hS => h4 S (by simp [hS]))
    refine ⟨(((S.map Prod.fst).map leVal).reverse ++ [a.1, a.2]) ++ G, fun live => ?_, ?_⟩
    · rw [hfini, Ibmap.fini_eq hV (show S.length * 8 < _ by omega) (show S.length * 4 < _ by omega), Ibmap.freeAll_append (_ ++ _)]
      show (Ibmap.freeAll _ live >>= fun live => hfini (cfg bs 4 μ) 1 h arrs live) = _
      rw [show (fun live => hfini (cfg bs 4 μ) 1 h arrs live) = Ibmap.freeAll G from funext g1]
      rfl
    · rw [List.flatten_cons, List.map_append, List.map_append, List.flatMap_cons, List.append_assoc, List.append_assoc]
      refine (List.reverse_perm _).append ?_
      refine (List.Perm.append_left _ g2).trans ?_
      rw [← List.append_assoc, ← List.append_assoc]
      exact List.perm_append_comm.append_right _
  | [], [], _ :: _, _, h2, _, _ => by simp at h2
  | [], _ :: _, _, h1, _, _, _ => by simp at h1
  | _ :: _, [], _, h1, _, _, _ => by simp at h1
  | _ :: _, _ :: _, [], _, h2, _, _ => by simp at h2

theorem hfini_spec (he : EnvOk e N) (hN : N ≤ 2^31) {nb : Nat} {μ : Mem} {h : List BM} (hi : HInv bs nb e N μ h) (arrs : List (Nat × Nat))
    (ha : arrs.length = nb) (live : List Nat) (hl : live.Nodup)
    (hf : Ibmap.Spec.Freeable (keys e N ++ arrs.flatMap fun a => [a.1, a.2]) live) :
    ∃ live', hfini (hcfg bs μ).toCfg 1 h arrs live = .ok live' ∧
      ∀ a, a ∈ live' ↔ a ∈ live ∧ (a = 0 ∨ a ∉ keys e N ++ arrs.flatMap fun a => [a.1, a.2]) := by
  obtain ⟨Ss, hv, hlen, hS⟩ := hi
  obtain ⟨G, g1, g2⟩ := hfini_eq (bs := bs) μ h Ss arrs hv.len (by omega) (fun i hi _ => hv.view i hi)
    (fun S hS' => Nat.le_trans (sizes hS S hS') hN)
  have hp : G.Perm (keys e N ++ arrs.flatMap fun a => [a.1, a.2]) := g2.trans ((ents_ptrs he hS).append_right _)
  obtain ⟨live', r1, _, r2⟩ := Ibmap.freeAll_good _ _ hl ((Ibmap.freeable_perm hp).2 hf)
  exact ⟨live', by rw [← r1]; exact g1 live, fun a => by rw [r2, hp.mem_iff]⟩

end Ulz.Bench

import Verif.Spec.Bmap
import Verif.Proofs.Tglist
set_option linter.unusedSimpArgs false
set_option linter.unusedVariables false
namespace Ulz.Bmap
open Spec
open Ulz.Sblist (mul_lt_of)
open Ulz.Sblist.Spec (TotalPreorder Sorted)

abbrev KV := List Byte × List Byte
abbrev Cmp := List Byte → List Byte → Int

section order
variable {cmp : Cmp} (hc : TotalPreorder cmp)
include hc

theorem cmp_symm {a b} (h : cmp a b = 0) : cmp b a = 0 := by
  have h1 := hc.flip a b
  have h2 := hc.flip b a
  omega

theorem cmp_eq_trans {a b d} (h : cmp a b = 0) (h2 : cmp b d = 0) : cmp a d = 0 := by
  have h1 := hc.trans a b d (by omega) (by omega)
  have h3 := hc.trans d b a (by have := cmp_symm hc h2; omega) (by have := cmp_symm hc h; omega)
  have h4 := hc.flip a d
  omega

theorem cmp_lt_of_lt_eq {a b d} (h : cmp a b < 0) (h2 : cmp b d ≤ 0) : cmp a d < 0 := by
  have h1 := hc.trans a b d (by omega) h2
  by_cases h0 : cmp a d < 0
  · exact h0
  · have h3 := hc.flip a d
    have h4 := hc.trans b d a h2 (by have := hc.flip d a; omega)
    have := hc.flip a b
    omega

theorem cmp_lt_of_eq_lt {a b d} (h : cmp a b ≤ 0) (h2 : cmp b d < 0) : cmp a d < 0 := by
  have h1 := hc.trans a b d h (by omega)
  by_cases h0 : cmp a d < 0
  · exact h0
  · have h3 := hc.flip a d
    have h4 := hc.trans d a b (by have := hc.flip d a; omega) h
    have := hc.flip b d
    omega

theorem lookup_mid {A B : List KV} {k0 v : List Byte} (hs : (A ++ (k0, v) :: B).Pairwise fun x y => cmp x.1 y.1 < 0) :
    lookup cmp (A ++ (k0, v) :: B) = upd cmp (lookup cmp (A ++ B)) k0 v := by
  funext k'
  unfold upd lookup
  by_cases h : cmp k' k0 = 0
  · rw [if_pos h]
    have hA : A.find? (fun e => decide (cmp k' e.1 = 0)) = none := by
      rw [List.find?_eq_none]
      intro e he
      have := (List.pairwise_append.1 hs).2.2 e he (k0, v) (by simp)
      intro h0
      simp only [decide_eq_true_eq] at h0
      have h1 := cmp_eq_trans hc (cmp_symm hc h0) h
      simp only at this
      omega
    rw [List.find?_append, hA]
    simp [h]
  · rw [if_neg h]
    rw [List.find?_append, List.find?_append]
    congr 2
    rw [List.find?_cons]
    simp [h]

omit hc in
theorem lookup_none {S : List KV} {k} : lookup cmp S k = none ↔ ∀ e ∈ S, cmp k e.1 ≠ 0 := by
  simp [lookup]

theorem lookup_congr {S : List KV} {k k'} (h : cmp k k' = 0) : lookup cmp S k = lookup cmp S k' := by
  unfold lookup
  congr 2
  funext e
  have : cmp k e.1 = 0 ↔ cmp k' e.1 = 0 :=
    ⟨fun h1 => cmp_eq_trans hc (cmp_symm hc h) h1, fun h1 => cmp_eq_trans hc h h1⟩
  simp [this]

theorem upd_congr {M : Map} {k k' v} (h : cmp k k' = 0) : upd cmp M k v = upd cmp M k' v := by
  funext x
  unfold upd
  have : cmp x k = 0 ↔ cmp x k' = 0 :=
    ⟨fun h1 => cmp_eq_trans hc h1 h, fun h1 => cmp_eq_trans hc h1 (cmp_symm hc h)⟩
  simp [this]

theorem rem_congr {M : Map} {k k'} (h : cmp k k' = 0) : rem cmp M k = rem cmp M k' := by
  funext x
  unfold rem
  have : cmp x k = 0 ↔ cmp x k' = 0 :=
    ⟨fun h1 => cmp_eq_trans hc h1 h, fun h1 => cmp_eq_trans hc h1 (cmp_symm hc h)⟩
  simp [this]

theorem rem_lookup {A B : List KV} {k0 v : List Byte} (hs : (A ++ (k0, v) :: B).Pairwise fun x y => cmp x.1 y.1 < 0) :
    rem cmp (lookup cmp (A ++ (k0, v) :: B)) k0 = lookup cmp (A ++ B) := by
  rw [lookup_mid hc hs]
  funext k'
  unfold rem upd
  by_cases h : cmp k' k0 = 0
  · rw [if_pos h]
    symm
    rw [lookup_none]
    intro e he h0
    have h1 := cmp_eq_trans hc (cmp_symm hc h0) h
    rcases List.mem_append.1 he with he | he
    · have := (List.pairwise_append.1 hs).2.2 e he (k0, v) (by simp)
      simp only at this
      omega
    · have := (List.pairwise_cons.1 (List.pairwise_append.1 hs).2.1).1 e he
      have := cmp_symm hc h1
      simp only at *
      omega
  · rw [if_neg h, if_neg h]

end order

theorem split_at {α} {S : List α} {i : Nat} (h : i < S.length) : S = S.take i ++ S[i] :: S.drop (i + 1) := by
  rw [← List.drop_eq_getElem_cons h, List.take_append_drop]

theorem lookup_split {cmp : Cmp} (hc : TotalPreorder cmp) {S : List KV} (hs : S.Pairwise fun x y => cmp x.1 y.1 < 0)
    {i : Nat} (hi : i < S.length) :
    lookup cmp S = upd cmp (lookup cmp (S.take i ++ S.drop (i + 1))) S[i].1 S[i].2 ∧
    rem cmp (lookup cmp S) S[i].1 = lookup cmp (S.take i ++ S.drop (i + 1)) := by
  have e := split_at hi
  have hs2 : (S.take i ++ (S[i].1, S[i].2) :: S.drop (i + 1)).Pairwise fun x y => cmp x.1 y.1 < 0 := by
    rw [← e]; exact hs
  have e2 : lookup cmp S = lookup cmp (S.take i ++ (S[i].1, S[i].2) :: S.drop (i + 1)) := congrArg _ e
  constructor
  · rw [e2, lookup_mid hc hs2]
  · rw [e2, rem_lookup hc hs2]

theorem keysList_spec {ksz l xs} (h : Tglist.Spec.Rep ksz l xs) (hb : l.count * ksz < 2^64) :
    keysList ksz l = .ok xs := by
  unfold keysList
  rw [h.count]
  have : ∀ n, n ≤ xs.length → (List.range n).mapM (Tglist.get ksz l) = .ok (xs.take n) := by
    intro n
    induction n with
    | zero => intro _; rfl
    | succ n ih =>
      intro hn
      rw [List.range_succ, List.mapM_append, ih (by omega)]
      simp only [ok_bind, List.mapM_cons, List.mapM_nil, Tglist.get_spec h hb (i := n) (by omega), pure_eq_ok]
      rw [List.take_append_getElem]
  rw [this _ (Nat.le_refl _), List.take_length]

theorem find_spec {c : Cfg} (hc : CfgOk c) {b S} (h : View c b S) (hb : b.keys.count * c.ksz < 2^64) (k : List Byte) :
    (∃ (i : Nat) (hi : i < S.length), find c b k = .ok (some i) ∧ c.cmp k S[i].1 = 0 ∧ lookup c.cmp S k = some S[i].2) ∨
    (find c b k = .ok none ∧ (∀ e ∈ S, c.cmp k e.1 ≠ 0) ∧ lookup c.cmp S k = none) := by
  unfold find
  rw [keysList_spec h.keys hb]
  simp only [ok_bind, pure_eq_ok]
  have hp : (S.map Prod.fst).Pairwise fun a b => (c.cmp k b).sign ≤ (c.cmp k a).sign := by
    rw [List.pairwise_map]
    refine h.sorted.imp ?_
    intro x y hxy
    by_cases h1 : c.cmp k x.1 < 0
    · have := cmp_lt_of_lt_eq hc.cmp h1 (by omega : c.cmp x.1 y.1 ≤ 0)
      rw [Int.sign_eq_neg_one_of_neg this, Int.sign_eq_neg_one_of_neg h1]; exact Int.le_refl _
    · by_cases h2 : c.cmp k x.1 = 0
      · have := cmp_lt_of_eq_lt hc.cmp (by omega : c.cmp k x.1 ≤ 0) hxy
        rw [Int.sign_eq_neg_one_of_neg this, h2]; decide
      · rw [Int.sign_eq_one_of_pos (by omega : 0 < c.cmp k x.1)]
        rcases Int.lt_trichotomy (c.cmp k y.1) 0 with h3 | h3 | h3
        · rw [Int.sign_eq_neg_one_of_neg h3]; decide
        · rw [h3]; decide
        · rw [Int.sign_eq_one_of_pos h3]; exact Int.le_refl _
  have hbs := hc.bs k (S.map Prod.fst) c.cmp hp
  cases hr : c.bs k (S.map Prod.fst) c.cmp with
  | some i =>
    rw [hr] at hbs
    obtain ⟨hi, he⟩ := hbs
    simp only [List.length_map] at hi
    simp only [List.getElem_map] at he
    left
    refine ⟨i, hi, rfl, he, ?_⟩
    rw [(lookup_split hc.cmp h.sorted hi).1]
    simp [upd, he]
  | none =>
    rw [hr] at hbs
    right
    have : ∀ e ∈ S, c.cmp k e.1 ≠ 0 := fun e he => hbs e.1 (List.mem_map_of_mem he)
    exact ⟨rfl, this, (lookup_none).2 this⟩

theorem map_set {α β} (f : α → β) (l : List α) (i : Nat) (a : α) : (l.set i a).map f = (l.map f).set i (f a) := by
  apply List.ext_getElem?
  intro j
  simp only [List.getElem?_map, List.getElem?_set]
  by_cases h : i = j <;> by_cases h2 : i < l.length <;> simp_all

theorem set_sorted {cmp : Cmp} {S : List KV} (hs : S.Pairwise fun x y => cmp x.1 y.1 < 0) {i : Nat} (hi : i < S.length)
    (v : List Byte) : (S.take i ++ (S[i].1, v) :: S.drop (i + 1)).Pairwise fun x y => cmp x.1 y.1 < 0 := by
  have h2 : (S.take i ++ S[i] :: S.drop (i + 1)).Pairwise fun x y => cmp x.1 y.1 < 0 := by
    rw [← split_at hi]; exact hs
  rw [List.pairwise_append, List.pairwise_cons] at h2 ⊢
  refine ⟨h2.1, ⟨h2.2.1.1, h2.2.1.2⟩, ?_⟩
  intro a ha b hb
  rcases List.mem_cons.1 hb with rfl | hb
  · exact h2.2.2 a ha S[i] List.mem_cons_self
  · exact h2.2.2 a ha b (List.mem_cons_of_mem _ hb)

theorem set_view {c : Cfg} (hc : CfgOk c) {b S} (h : View c b S) (hb : b.values.count * c.vsz < 2^64) {i : Nat}
    (hi : i < S.length) (v : List Byte) (hv : v.length = c.vsz) :
    ∃ vs, Tglist.set c.vsz b.values v i = .ok (vs, 1) ∧ View c ⟨b.keys, vs⟩ (S.set i (S[i].1, v)) ∧
      lookup c.cmp (S.set i (S[i].1, v)) = upd c.cmp (lookup c.cmp S) S[i].1 v := by
  obtain ⟨vs, s1, s2, _⟩ := Tglist.set_spec h.values hb v hv (pos := i) (by simpa using hi)
  refine ⟨vs, s1, ⟨?_, ?_, ?_⟩, ?_⟩
  · have : (S.set i (S[i].1, v)).map Prod.fst = S.map Prod.fst := by
      rw [map_set]
      apply List.ext_getElem (by simp)
      intro j h1 h2
      simp only [List.getElem_set]
      split
      · rename_i h; subst h; simp
      · rfl
    rw [this]; exact h.keys
  · rw [map_set]; exact s2
  · rw [List.set_eq_take_append_cons_drop, if_pos hi]
    exact set_sorted h.sorted hi v
  · rw [List.set_eq_take_append_cons_drop, if_pos hi, lookup_mid hc.cmp (set_sorted h.sorted hi v),
      (lookup_split hc.cmp h.sorted hi).1]
    funext x
    unfold upd
    split <;> rfl

theorem nocheck_spec {c : Cfg} (hc : CfgOk c) {b S} (h : View c b S) (hk : (2 * b.keys.count + 4) * c.ksz < 2^64)
    (hv : (2 * b.keys.count + 4) * c.vsz < 2^64) (a1 a2 : Alloc) (k v : List Byte) (hkl : k.length = c.ksz)
    (hvl : v.length = c.vsz) (hnew : ∀ e ∈ S, c.cmp k e.1 ≠ 0) :
    (∃ b' p, ¬ (a1 = none ∧ b.keys.count = b.keys.capa) ∧ ¬ (a2 = none ∧ b.values.count = b.values.capa) ∧
      insert_nocheck c a1 a2 b k v = .ok (b', some p, some p) ∧ p ≤ S.length ∧
      View c b' (S.take p ++ (k, v) :: S.drop p) ∧
      lookup c.cmp (S.take p ++ (k, v) :: S.drop p) = upd c.cmp (lookup c.cmp S) k v) ∨
    (a1 = none ∧ b.keys.count = b.keys.capa ∧ insert_nocheck c a1 a2 b k v = .ok (b, none, none)) ∨
    (∃ b' p, ¬ (a1 = none ∧ b.keys.count = b.keys.capa) ∧ a2 = none ∧ b.values.count = b.values.capa ∧ p ≤ S.length ∧ insert_nocheck c a1 a2 b k v = .ok (b', none, some p) ∧ View c b' S) := by
  have hcnt : b.values.count = b.keys.count := by rw [h.values.count, h.keys.count]; simp
  have hkc : b.keys.count = S.length := by rw [h.keys.count]; simp
  unfold insert_nocheck
  rcases Tglist.insert_sorted_spec h.keys hk a1 k hkl c.cmp with ⟨ks, p, r1, r2, r3, r4⟩ | ⟨r1, rf, r2⟩
  · have hnk : ¬ (a1 = none ∧ b.keys.count = b.keys.capa) := by
      rintro ⟨rfl, e⟩
      exact Tglist.insert_sorted_full e r1
    rw [r1]
    simp only [ok_bind]
    simp only [List.length_map] at r2
    rcases Tglist.insert_spec h.values (by rw [hcnt]; exact hv) a2 v hvl (pos := p) (by simpa using r2)
      with ⟨vs, s1, s2, _⟩ | ⟨s1, sf, s2⟩
    · left
      have hnv : ¬ (a2 = none ∧ b.values.count = b.values.capa) := by
        rintro ⟨rfl, e⟩
        rw [Tglist.insert_full e] at s1
        cases s1
      rw [s1]
      simp only [ok_bind, ne_eq, Nat.one_ne_zero, not_false_eq_true, if_true]
      have hsorted : Sorted c.cmp (S.map Prod.fst) := by
        unfold Sorted
        rw [List.pairwise_map]
        exact h.sorted.imp fun h => by omega
      have hs' := r4 hc.cmp hsorted
      have hstrict : (S.take p ++ (k, v) :: S.drop p).Pairwise fun x y => c.cmp x.1 y.1 < 0 := by
        have h0 := h.sorted
        rw [← List.take_append_drop p S, List.pairwise_append] at h0
        unfold Sorted at hs'
        rw [← List.map_take, ← List.map_drop, List.pairwise_append] at hs'
        rw [List.pairwise_append]
        refine ⟨h0.1, List.pairwise_cons.2 ⟨?_, h0.2.1⟩, ?_⟩
        · intro e he
          have h1 := (List.pairwise_cons.1 hs'.2.1).1 e.1 (List.mem_map_of_mem he)
          have h2 := hnew e (List.mem_of_mem_drop he)
          simp only
          omega
        · intro e he e' he'
          rcases List.mem_cons.1 he' with rfl | he'
          · have h1 := hs'.2.2 e.1 (List.mem_map_of_mem he) k (by simp)
            have h2 := hnew e (List.mem_of_mem_take he)
            simp only
            by_cases h3 : c.cmp e.1 k = 0
            · exact absurd (cmp_symm hc.cmp h3) h2
            · omega
          · exact h0.2.2 e he e' he'
      refine ⟨_, p, hnk, hnv, rfl, r2, ⟨?_, ?_, hstrict⟩, ?_⟩
      · simpa [List.map_take, List.map_drop] using r3
      · simpa [List.map_take, List.map_drop] using s2
      · rw [lookup_mid hc.cmp hstrict, List.take_append_drop]
    · right; right
      rw [s2]
      simp only [ok_bind, ne_eq, not_true_eq_false, if_false]
      have hkc2 : ks.count = S.length + 1 := by rw [r3.count]; simp; omega
      obtain ⟨ks', d1, d2, _, _⟩ := Tglist.delete_spec r3 (mul_lt_of hk (by omega)) (i := p) (by simp; omega)
      rw [d1]
      refine ⟨_, p, hnk, s1, sf, r2, rfl, ⟨?_, h.values, h.sorted⟩⟩
      have : ((S.map Prod.fst).take p ++ k :: (S.map Prod.fst).drop p).eraseIdx p = S.map Prod.fst := by
        rw [List.eraseIdx_append_of_length_le (by simp; omega)]
        simp [Nat.min_eq_left r2]
      rw [this] at d2
      exact d2
  · right; left
    rw [r2]
    exact ⟨r1, rf, rfl⟩

theorem delete_view {c : Cfg} (hc : CfgOk c) {b S} (h : View c b S) (hk : b.keys.count * c.ksz < 2^64)
    (hv : b.keys.count * c.vsz < 2^64) {i : Nat} (hi : i < S.length) :
    ∃ b', delete c b i = .ok b' ∧ View c b' (S.eraseIdx i) ∧
      lookup c.cmp (S.eraseIdx i) = rem c.cmp (lookup c.cmp S) S[i].1 := by
  have hcnt : b.values.count = b.keys.count := by rw [h.values.count, h.keys.count]; simp
  obtain ⟨ks, d1, d2, _, _⟩ := Tglist.delete_spec h.keys hk (i := i) (by simpa using hi)
  obtain ⟨vs, e1, e2, _, _⟩ := Tglist.delete_spec h.values (by rw [hcnt]; exact hv) (i := i) (by simpa using hi)
  refine ⟨⟨ks, vs⟩, by simp only [delete, d1, e1, ok_bind, pure_eq_ok], ⟨?_, ?_, ?_⟩, ?_⟩
  · rw [Tglist.map_eraseIdx']; exact d2
  · rw [Tglist.map_eraseIdx']; exact e2
  · exact h.sorted.sublist (List.eraseIdx_sublist _ _)
  · rw [(lookup_split hc.cmp h.sorted hi).2, List.eraseIdx_eq_take_drop_succ]

theorem insert_spec {c : Cfg} (hc : CfgOk c) {b S} (h : View c b S) (hk : (2 * b.keys.count + 4) * c.ksz < 2^64)
    (hv : (2 * b.keys.count + 4) * c.vsz < 2^64) (a1 a2 : Alloc) (k v : List Byte) (hkl : k.length = c.ksz)
    (hvl : v.length = c.vsz) :
    (∃ b' S' i, ∃ hi : i < S'.length, insert c a1 a2 b k v = .ok (b', some i) ∧ View c b' S' ∧
      c.cmp k S'[i].1 = 0 ∧ S'[i].2 = v ∧ S'.length ≤ S.length + 1 ∧
      lookup c.cmp S' = upd c.cmp (lookup c.cmp S) k v) ∨
    (lookup c.cmp S k = none ∧ a1 = none ∧ insert c a1 a2 b k v = .ok (b, none)) ∨
    (lookup c.cmp S k = none ∧ a2 = none ∧ ∃ b' p, p ≤ S.length ∧ insert c a1 a2 b k v = .ok (b', some p) ∧ View c b' S) := by
  have hcnt : b.values.count = b.keys.count := by rw [h.values.count, h.keys.count]; simp
  unfold insert
  rcases find_spec hc h (mul_lt_of hk (by omega)) k with ⟨i, hi, f1, f2, f3⟩ | ⟨f1, f2, f3⟩
  · left
    rw [f1]
    simp only [ok_bind]
    obtain ⟨vs, s1, s2, s3⟩ := set_view hc h (mul_lt_of hv (by omega)) hi v hvl
    rw [s1]
    refine ⟨_, _, i, by simpa using hi, rfl, s2, by simpa using f2, by simp, by simp, ?_⟩
    rw [s3, upd_congr hc.cmp f2]
  · rw [f1]
    simp only [ok_bind]
    rcases nocheck_spec hc h hk hv a1 a2 k v hkl hvl f2 with ⟨b', p, _, _, r1, r2, r3, r4⟩ | ⟨r1, rf, r2⟩ | ⟨b', p, _, r0, rf, r1, r2, r3⟩
    · left
      rw [r1]
      refine ⟨b', _, p, by simp; omega, rfl, r3, ?_, ?_, by simp; omega, r4⟩
      · rw [List.getElem_append_right (by simp; omega)]; simp [Nat.min_eq_left r2, hc.cmp.refl]
      · rw [List.getElem_append_right (by simp; omega)]; simp [Nat.min_eq_left r2]
    · right; left
      rw [r2]
      exact ⟨f3, r1, rfl⟩
    · right; right
      rw [r2]
      exact ⟨f3, r0, b', p, r1, rfl, r3⟩

theorem get_spec {c : Cfg} (hc : CfgOk c) {b S} (h : View c b S) (hk : b.keys.count * c.ksz < 2^64)
    (hv : b.keys.count * c.vsz < 2^64) (k : List Byte) : get c b k = .ok (lookup c.cmp S k) := by
  have hcnt : b.values.count = b.keys.count := by rw [h.values.count, h.keys.count]; simp
  unfold get
  rcases find_spec hc h hk k with ⟨i, hi, f1, f2, f3⟩ | ⟨f1, f2, f3⟩
  · rw [f1]
    simp only [ok_bind, getval]
    rw [Tglist.get_spec h.values (by rw [hcnt]; exact hv) (i := i) (by simpa using hi), f3]
    simp [pure_eq_ok]
  · rw [f1, f3]
    rfl

theorem step_spec {c : Cfg} (hc : CfgOk c) {b S} (h : View c b S) (hk : (2 * b.keys.count + 4) * c.ksz < 2^64)
    (hv : (2 * b.keys.count + 4) * c.vsz < 2^64) (op : Op) (hop : OpOk c op) :
    ∃ b' r S', step c b op = .ok (b', r) ∧ Step c.cmp (lookup c.cmp S) op (lookup c.cmp S') r ∧ View c b' S' ∧
      S'.length ≤ S.length + 1 := by
  have hk0 : b.keys.count * c.ksz < 2^64 := mul_lt_of hk (by omega)
  have hv0 : b.keys.count * c.vsz < 2^64 := mul_lt_of hv (by omega)
  cases op with
  | insert k v a1 a2 =>
    rcases insert_spec hc h hk hv a1 a2 k v hop.1 hop.2 with ⟨b', S', i, hi, r1, r2, _, _, r3, r4⟩ | ⟨r0, r1, r2⟩ | ⟨r0, r1, b', p, _, r2, r3⟩
    · exact ⟨b', _, S', by simp only [step, r1]; rfl, by rw [r4]; exact .insert, r2, r3⟩
    · exact ⟨b, _, S, by simp only [step, r2]; rfl, .insertFail r0 (.inl r1), h, by omega⟩
    · exact ⟨b', _, S, by simp only [step, r2]; rfl, .insertFail r0 (.inr r1), r3, by omega⟩
  | get k =>
    exact ⟨b, _, S, by simp only [step, get_spec hc h hk0 hv0]; rfl, .get, h, by omega⟩
  | contains k =>
    refine ⟨b, _, S, ?_, .contains, h, by omega⟩
    rcases find_spec hc h hk0 k with ⟨i, hi, f1, f2, f3⟩ | ⟨f1, f2, f3⟩ <;> (simp only [step, f1, f3]; rfl)
  | del k =>
    rcases find_spec hc h hk0 k with ⟨i, hi, f1, f2, f3⟩ | ⟨f1, f2, f3⟩
    · obtain ⟨b', d1, d2, d3⟩ := delete_view hc h hk0 hv0 hi
      refine ⟨b', .bool true, S.eraseIdx i, by simp only [step, f1, ok_bind, d1]; rfl, ?_, d2, ?_⟩
      · have := Step.del (cmp := c.cmp) (M := lookup c.cmp S) (k := k)
        rw [f3] at this
        rw [d3, ← rem_congr hc.cmp f2]
        exact this
      · rw [List.length_eraseIdx]; split <;> omega
    · refine ⟨b, .bool false, S, by simp only [step, f1]; rfl, ?_, h, by omega⟩
      have := Step.del (cmp := c.cmp) (M := lookup c.cmp S) (k := k)
      rw [f3] at this
      have e : rem c.cmp (lookup c.cmp S) k = lookup c.cmp S := by
        funext x
        unfold rem
        split
        · rename_i hx; rw [lookup_congr hc.cmp hx, f3]
        · rfl
      rw [e] at this
      exact this

theorem run_spec {c : Cfg} (hc : CfgOk c) : ∀ (ops : List Op) (b : BM) (S : List KV), View c b S →
    (2 * (S.length + ops.length) + 4) * c.ksz < 2^64 → (2 * (S.length + ops.length) + 4) * c.vsz < 2^64 →
    (∀ op ∈ ops, OpOk c op) →
    ∃ b' rs S', run c b ops = .ok (b', rs) ∧ Steps c.cmp (lookup c.cmp S) ops (lookup c.cmp S') rs ∧ View c b' S' ∧
      S'.length ≤ S.length + ops.length
  | [], b, S, h, _, _, _ => ⟨b, [], S, rfl, .nil, h, by simp⟩
  | op :: ops, b, S, h, hk, hv, hop => by
    simp only [List.length_cons] at hk hv
    have hkc : b.keys.count = S.length := by rw [h.keys.count]; simp
    obtain ⟨b1, r, S1, h1, h2, h3, h4⟩ := step_spec hc h (mul_lt_of hk (by omega)) (mul_lt_of hv (by omega)) op
      (hop op (by simp))
    obtain ⟨b2, rs, S2, r1, r2, r3, r4⟩ := run_spec hc ops b1 S1 h3 (mul_lt_of hk (by omega)) (mul_lt_of hv (by omega))
      (fun o ho => hop o (by simp [ho]))
    exact ⟨b2, r :: rs, S2, by simp only [run, h1, ok_bind, r1]; rfl, .cons h2 r2, r3, by simp; omega⟩

theorem init_view {c : Cfg} (hc : CfgOk c) : View c init [] :=
  ⟨Tglist.init_rep hc.ksz, Tglist.init_rep hc.vsz, .nil⟩

end Ulz.Bmap

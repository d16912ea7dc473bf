import Verif.Proofs.Hbmap
import Verif.Spec.Mapdel
set_option linter.unusedSimpArgs false
set_option linter.unusedVariables false
namespace Ulz.Bmap
open Spec
open Ulz.Sblist (mul_lt_of)
open Ulz.Sblist.Spec (TotalPreorder Sorted)
attribute [local irreducible] mkIter isNone iterBucket iterIndex

/-- Total number of entries in the buckets from `b` on. -/
def remain (Ss : List (List KV)) (b : Nat) : Nat := ((Ss.drop b).map List.length).sum

theorem remain_cons {Ss : List (List KV)} {b : Nat} (hb : b < Ss.length) :
    remain Ss b = Ss[b].length + remain Ss (b + 1) := by
  unfold remain
  rw [List.drop_eq_getElem_cons hb, List.map_cons, List.sum_cons]

theorem remain_set {Ss : List (List KV)} {b : Nat} {S'} : remain (Ss.set b S') (b + 1) = remain Ss (b + 1) := by
  unfold remain
  rw [List.drop_set_of_lt (by omega)]

theorem remain_skip {Ss : List (List KV)} {b b' : Nat} (hle : b ≤ b') (hb : b' ≤ Ss.length)
    (hz : ∀ j (h1 : b ≤ j) (h2 : j < b'), Ss[j].length = 0) : remain Ss b = remain Ss b' := by
  induction hle with
  | refl => rfl
  | step hn ih =>
    rw [ih (by omega) (fun j h1 h2 => hz j h1 (by omega)), remain_cons (by omega), hz _ hn (by omega), Nat.zero_add]

/-- The buckets from `b` on swept by `F`, the others untouched. -/
def sweptFrom (F : List KV → List KV) (Ss : List (List KV)) (b : Nat) : List (List KV) :=
  Ss.take b ++ (Ss.drop b).map F

theorem sweptFrom_zero {F : List KV → List KV} {Ss} : sweptFrom F Ss 0 = Ss.map F := by simp [sweptFrom]

theorem sweptFrom_end {F : List KV → List KV} {Ss : List (List KV)} : sweptFrom F Ss Ss.length = Ss := by
  simp [sweptFrom]

theorem sweptFrom_cons {F : List KV → List KV} {Ss : List (List KV)} {b : Nat} (hb : b < Ss.length) :
    sweptFrom F Ss b = sweptFrom F (Ss.set b (F Ss[b])) (b + 1) := by
  unfold sweptFrom
  rw [List.drop_eq_getElem_cons hb, List.drop_set_of_lt (by omega), List.take_succ_eq_append_getElem (by simpa using hb),
    List.take_set_of_le (by omega), List.map_cons, List.getElem_set_self, List.append_assoc]
  rfl

theorem sweptFrom_skip {F : List KV → List KV} (h0 : F [] = []) {Ss : List (List KV)} {b b' : Nat} (hle : b ≤ b')
    (hb : b' ≤ Ss.length) (hz : ∀ j (h1 : b ≤ j) (h2 : j < b'), Ss[j].length = 0) :
    sweptFrom F Ss b = sweptFrom F Ss b' := by
  induction hle with
  | refl => rfl
  | step hn ih =>
    rename_i m
    rw [ih (by omega) (fun j h1 h2 => hz j h1 (by omega)), sweptFrom_cons (by omega)]
    have := List.eq_nil_of_length_eq_zero (hz m hn (by omega))
    congr 1
    conv => rhs; rw [← set_self' (l := Ss) (i := m) (by omega)]
    rw [this, h0]

theorem sizeLe_set' {Ss : List (List KV)} {n b : Nat} {S'} (h : SizeLe Ss n) (h' : S'.length ≤ n) :
    SizeLe (Ss.set b S') n := by
  intro S hS
  rcases List.mem_or_eq_of_mem_set hS with hS | hS
  · exact h S hS
  · subst hS; exact h'

/-- A loop body that replaces the rest `R` of the current bucket (from the current entry on) by `f R`. -/
structure BodyOk (c : HCfg) (n : Nat) (body : List BM → Iter → C (List BM)) (f : List KV → List KV) : Prop where
  le : ∀ R, (f R).length ≤ R.length
  run : ∀ h Ss, HView c h Ss → SizeLe Ss n → ∀ b (hb : b < Ss.length) (A R : List KV), R ≠ [] → Ss[b] = A ++ R →
    ∃ h', body h (mkIter b A.length) = .ok h' ∧ HView c h' (Ss.set b (A ++ f R))

/-- `F` is the effect of a loop over a bucket with a body as in `BodyOk`. -/
structure Sweep (f F : List KV → List KV) : Prop where
  nil : F [] = []
  cons : ∀ R, R ≠ [] → F R = match f R with | [] => [] | x :: R' => x :: F R'

theorem sizeLe_sub {Ss : List (List KV)} {n b : Nat} (hb : b < Ss.length) (h : SizeLe Ss n) : Ss[b].length ≤ n :=
  h _ (List.getElem_mem _)

theorem foreachBodyFrom_spec {c : HCfg} {n : Nat} (hn32 : n < 2^32) {body f F} (hB : BodyOk c n body f)
    (hS : Sweep f F) : ∀ (fuel : Nat),
    (∀ h Ss b (hb : b < Ss.length) (A R : List KV), HView c h Ss → SizeLe Ss n → R ≠ [] → Ss[b] = A ++ R →
      R.length + remain Ss (b + 1) < fuel →
      ∃ h', foreachBodyFrom body fuel h (mkIter b A.length) = .ok h' ∧
        HView c h' (sweptFrom F (Ss.set b (A ++ F R)) (b + 1))) ∧
    (∀ h Ss b it, HView c h Ss → SizeLe Ss n → First h b it → b ≤ Ss.length → remain Ss b < fuel →
      ∃ h', foreachBodyFrom body fuel h it = .ok h' ∧ HView c h' (sweptFrom F Ss b))
  | 0 => ⟨fun _ _ _ _ _ _ _ _ _ _ h => by omega, fun _ _ _ _ _ _ _ _ h => by omega⟩
  | fuel + 1 => by
    obtain ⟨ih1, ih2⟩ := foreachBodyFrom_spec hn32 hB hS fuel
    have hA : ∀ h Ss b (hb : b < Ss.length) (A R : List KV), HView c h Ss → SizeLe Ss n → R ≠ [] → Ss[b] = A ++ R →
        R.length + remain Ss (b + 1) < fuel + 1 →
        ∃ h', foreachBodyFrom body (fuel + 1) h (mkIter b A.length) = .ok h' ∧
          HView c h' (sweptFrom F (Ss.set b (A ++ F R)) (b + 1)) := by
      intro h Ss b hb A R hv hn hR hAR hf
      have hbh : b < h.length := by rw [hv.len]; exact hb
      have hl := hv.small
      have hRpos : 0 < R.length := List.length_pos_iff.2 hR
      have hsz := sizeLe_sub hb hn
      rw [hAR, List.length_append] at hsz
      unfold foreachBodyFrom iterValid
      rw [bucketValid_spec (by omega) (by omega), if_pos (by simpa using hbh), indexValid_spec hbh (by omega) (by omega),
        bsize_view hv hb, hAR]
      simp only [ok_bindE]
      rw [if_pos (by simp; omega)]
      obtain ⟨h1, b1, b2⟩ := hB.run h Ss hv hn b hb A R hR hAR
      rw [b1]
      simp only [ok_bindE]
      have hle := hB.le R
      have hb1 : b < (Ss.set b (A ++ f R)).length := by simpa using hb
      have hbh1 : b < h1.length := by rw [b2.len]; exact hb1
      have hn1 : SizeLe (Ss.set b (A ++ f R)) n := sizeLe_set' hn (by simp; omega)
      obtain ⟨it, e1, e2⟩ := nextValid_spec b2.small (h1.length + 1) b A.length hbh1 (by omega) (by omega)
      rw [e1]
      simp only [ok_bindE]
      rw [bsize_view b2 hb1] at e2
      simp only [List.getElem_set_self, List.length_append] at e2
      rw [hS.cons R hR]
      cases hfR : f R with
      | nil =>
        rw [hfR] at b2 e2 hn1 hb1
        simp only [List.length_nil] at e2
        rw [if_neg (by omega)] at e2
        obtain ⟨h2, g1, g2⟩ := ih2 h1 _ (b + 1) it b2 hn1 e2 hb1 (by rw [remain_set]; omega)
        exact ⟨h2, g1, g2⟩
      | cons x R' =>
        rw [hfR] at b2 e2 hn1 hb1 hle
        simp only [List.length_cons] at e2 hle
        simp only []
        by_cases hR' : R' = []
        · subst hR'
          simp only [List.length_nil] at e2
          rw [if_neg (by omega)] at e2
          obtain ⟨h2, g1, g2⟩ := ih2 h1 _ (b + 1) it b2 hn1 e2 hb1 (by rw [remain_set]; omega)
          rw [hS.nil]
          exact ⟨h2, g1, g2⟩
        · have : 0 < R'.length := List.length_pos_iff.2 hR'
          rw [if_pos (by omega)] at e2
          subst e2
          obtain ⟨h2, g1, g2⟩ := ih1 h1 _ b hb1 (A ++ [x]) R' b2 hn1 hR' (by simp) (by rw [remain_set]; omega)
          refine ⟨h2, by simpa using g1, ?_⟩
          rw [List.set_set] at g2
          simpa using g2
    refine ⟨hA, ?_⟩
    intro h Ss b it hv hn hfi hb hf
    have hlen := hv.len
    rcases hfi with ⟨b', f1, f2, f3, f4, f5⟩ | ⟨f1, f2⟩
    · subst f5
      have hb' : b' < Ss.length := by omega
      have hz : ∀ j (h1 : b ≤ j) (h2 : j < b'), Ss[j].length = 0 := fun j h1 h2 => by
        rw [← bsize_view hv (by omega)]; exact f4 j h1 h2
      rw [remain_skip f1 (by omega) hz, remain_cons hb'] at hf
      rw [sweptFrom_skip hS.nil f1 (by omega) hz, sweptFrom_cons hb']
      rw [bsize_view hv hb'] at f3
      exact hA h Ss b' hb' [] Ss[b'] hv hn (List.length_pos_iff.1 f3) rfl hf
    · subst f2
      have hz : ∀ j (h1 : b ≤ j) (h2 : j < Ss.length), Ss[j].length = 0 := fun j h1 h2 => by
        rw [← bsize_view hv (by omega)]; exact f1 j h1 (by omega)
      rw [sweptFrom_skip hS.nil hb (Nat.le_refl _) hz, sweptFrom_end]
      unfold foreachBodyFrom iterValid
      rw [bucketValid_spec hv.small (by omega)]
      refine ⟨h, by simp [pure_eq_ok], hv⟩

theorem foreachBody_spec {c : HCfg} {n : Nat} (hn32 : n < 2^32) {body f F} (hB : BodyOk c n body f)
    (hS : Sweep f F) {h Ss} (hv : HView c h Ss) (hn : SizeLe Ss n) {fuel : Nat} (hf : remain Ss 0 < fuel) :
    ∃ h', foreachBody body h fuel = .ok h' ∧ HView c h' (Ss.map F) := by
  obtain ⟨_, i2⟩ := foreachBodyFrom_spec hn32 hB hS fuel
  have hz := zero_mkIter
  have h0 := hv.pos
  have hl := hv.small
  have hlen := hv.len
  rw [← sweptFrom_zero]
  unfold foreachBody iterValid
  rw [hz, bucketValid_spec (by omega) (by omega), if_pos (by simpa using h0), indexValid_spec h0 (by omega) (by omega)]
  simp only [ok_bindE]
  by_cases hb : 0 < bsize h 0
  · rw [if_pos (by simpa using hb)]
    simp only [pure_eq_ok, ok_bindE]
    exact i2 h Ss 0 _ hv hn (.inl ⟨0, by omega, h0, hb, fun j _ h => by omega, hz⟩) (by omega) hf
  · rw [if_neg (by simpa using hb)]
    obtain ⟨it, e1, e2⟩ := nextValid_spec hl (h.length + 1) 0 0 h0 (by omega) (by omega)
    rw [e1]
    simp only [ok_bindE]
    rw [if_neg (by omega)] at e2
    have hzz : ∀ j (h1 : 0 ≤ j) (h2 : j < 1), Ss[j].length = 0 := fun j h1 h2 => by
      have : j = 0 := by omega
      subst this
      rw [← bsize_view hv (by omega)]; omega
    rw [remain_skip (by omega) (by omega) hzz] at hf
    rw [sweptFrom_skip hS.nil (by omega) (by omega) hzz]
    exact i2 h Ss 1 it hv hn e2 (by omega) hf

/-! ### The three bodies -/

section
variable {c : HCfg} (hc : HCfgOk c) {n : Nat} (hn32 : n < 2^32) (hk : n * c.ksz < 2^64) (hvz : n * c.vsz < 2^64)
include hc hn32 hk hvz

theorem hdelete_spec {h Ss} (hv : HView c h Ss) (hn : SizeLe Ss n) {b : Nat} (hb : b < Ss.length) {A R : List KV} {x : KV}
    (hAR : Ss[b] = A ++ x :: R) :
    ∃ h', hdelete c h (mkIter b A.length) = .ok h' ∧ HView c h' (Ss.set b (A ++ R)) := by
  have hbh : b < h.length := by rw [hv.len]; exact hb
  have hl := hv.small
  have hsz := sizeLe_sub hb hn
  have hlen : Ss[b].length = A.length + (R.length + 1) := by rw [hAR]; simp
  have hV := hv.view b hbh
  have hcnt : h[b].keys.count = Ss[b].length := by rw [hV.keys.count]; simp
  obtain ⟨bm, d1, d2, _⟩ := delete_view hc.toCfgOk hV (mul_lt_of hk (by omega)) (mul_lt_of hvz (by omega)) (i := A.length) (by omega)
  have he : Ss[b].eraseIdx A.length = A ++ R := by
    rw [hAR, List.eraseIdx_append_of_length_le (by omega)]
    simp
  rw [he] at d2
  unfold hdelete
  rw [iterBucket_mk (by omega) (by omega), bucket_spec hbh, iterIndex_mk (by omega) (by omega)]
  simp only [ok_bindE, d1, pure_eq_ok]
  refine ⟨_, rfl, hv.set hb d2 ?_⟩
  intro e he
  apply hv.home b hb
  rw [hAR]
  simp only [List.mem_append, List.mem_cons] at he ⊢
  rcases he with he | he
  · exact .inl he
  · exact .inr (.inr he)

theorem bodyOk_delete : BodyOk c n (hdelete c) List.tail := by
  refine ⟨fun R => by simp, ?_⟩
  intro h Ss hv hn b hb A R hR hAR
  obtain ⟨x, R, rfl⟩ := List.exists_cons_of_ne_nil hR
  exact hdelete_spec hc hn32 hk hvz hv hn hb hAR

theorem drain_spec : ∀ (m : Nat) (h Ss), HView c h Ss → SizeLe Ss n → ∀ b (hb : b < Ss.length) (A R : List KV),
    Ss[b] = A ++ R → R.length < m →
    ∃ h', drain c m h (mkIter b A.length) = .ok h' ∧ HView c h' (Ss.set b A)
  | 0, _, _, _, _, _, _, _, _, _, h => by omega
  | m + 1, h, Ss, hv, hn, b, hb, A, R, hAR, hm => by
    have hbh : b < h.length := by rw [hv.len]; exact hb
    have hl := hv.small
    have hsz := sizeLe_sub hb hn
    rw [hAR, List.length_append] at hsz
    unfold drain
    rw [indexValid_spec hbh (by omega) (by omega), bsize_view hv hb, hAR]
    simp only [ok_bindE]
    cases R with
    | nil =>
      rw [if_neg (by simp)]
      refine ⟨h, rfl, ?_⟩
      rw [List.append_nil] at hAR
      rw [← hAR, set_self' hb]
      exact hv
    | cons x R =>
      rw [if_pos (by simp)]
      obtain ⟨h1, d1, d2⟩ := hdelete_spec hc hn32 hk hvz hv hn hb hAR
      rw [d1]
      simp only [ok_bindE]
      simp only [List.length_cons] at hm hsz
      obtain ⟨h2, g1, g2⟩ := drain_spec m h1 _ d2 (sizeLe_set' hn (by simp; omega)) b (by simpa using hb) A R (by simp) (by omega)
      rw [List.set_set] at g2
      exact ⟨h2, g1, g2⟩

theorem bodyOk_drain {m : Nat} (hm : n < m) : BodyOk c n (drain c m) (fun _ => []) := by
  refine ⟨fun R => by simp, ?_⟩
  intro h Ss hv hn b hb A R hR hAR
  have hsz := sizeLe_sub hb hn
  rw [hAR, List.length_append] at hsz
  obtain ⟨h', g1, g2⟩ := drain_spec hc hn32 hk hvz m h Ss hv hn b hb A R hAR (by omega)
  exact ⟨h', g1, by simpa using g2⟩

theorem drainIf_spec (p : List Byte → List Byte → Bool) : ∀ (m : Nat) (h Ss), HView c h Ss → SizeLe Ss n →
    ∀ b (hb : b < Ss.length) (A R : List KV), Ss[b] = A ++ R → R.length < m →
    ∃ h', drainIf c p m h (mkIter b A.length) = .ok h' ∧
      HView c h' (Ss.set b (A ++ R.dropWhile fun e => p e.1 e.2))
  | 0, _, _, _, _, _, _, _, _, _, h => by omega
  | m + 1, h, Ss, hv, hn, b, hb, A, R, hAR, hm => by
    have hbh : b < h.length := by rw [hv.len]; exact hb
    have hl := hv.small
    have hsz := sizeLe_sub hb hn
    rw [hAR, List.length_append] at hsz
    unfold drainIf
    rw [indexValid_spec hbh (by omega) (by omega), bsize_view hv hb, hAR]
    simp only [ok_bindE]
    cases R with
    | nil =>
      rw [if_neg (by simp)]
      refine ⟨h, rfl, ?_⟩
      rw [List.dropWhile_nil, ← hAR, set_self' hb]
      exact hv
    | cons x R =>
      rw [if_pos (by simp)]
      have hi : A.length < Ss[b].length := by rw [hAR]; simp
      have hx : Ss[b][A.length] = x := by simp only [hAR]; rw [List.getElem_append_right (by omega)]; simp
      obtain ⟨_, k1, k2⟩ := entry_spec hv hn hn32 hk hvz hb hi
      rw [k1, k2, hx]
      simp only [ok_bindE]
      simp only [List.length_cons] at hm hsz
      cases hp : p x.1 x.2 with
      | false =>
        simp only [Bool.false_eq_true, if_false]
        refine ⟨h, rfl, ?_⟩
        rw [List.dropWhile_cons_of_neg (by simp [hp]), ← hAR, set_self' hb]
        exact hv
      | true =>
        simp only [if_true]
        obtain ⟨h1, d1, d2⟩ := hdelete_spec hc hn32 hk hvz hv hn hb hAR
        rw [d1]
        simp only [ok_bindE]
        obtain ⟨h2, g1, g2⟩ := drainIf_spec p m h1 _ d2 (sizeLe_set' hn (by simp; omega)) b (by simpa using hb) A R (by simp) (by omega)
        rw [List.set_set] at g2
        rw [List.dropWhile_cons_of_pos (by simp [hp])]
        exact ⟨h2, g1, g2⟩

theorem bodyOk_drainIf (p : List Byte → List Byte → Bool) {m : Nat} (hm : n < m) :
    BodyOk c n (drainIf c p m) (List.dropWhile fun e => p e.1 e.2) := by
  refine ⟨fun R => (List.dropWhile_sublist _).length_le, ?_⟩
  intro h Ss hv hn b hb A R hR hAR
  have hsz := sizeLe_sub hb hn
  rw [hAR, List.length_append] at hsz
  exact drainIf_spec hc hn32 hk hvz p m h Ss hv hn b hb A R hAR (by omega)

end

/-! ### Their effects on a bucket -/

/-- Every second element, starting with the first iff the flag is set. -/
def alt {α} : Bool → List α → List α
  | _, [] => []
  | true, x :: S => x :: alt false S
  | false, _ :: S => alt true S

theorem alt_sublist {α} : ∀ (b : Bool) (S : List α), (alt b S).Sublist S
  | true, [] => .slnil
  | false, [] => .slnil
  | true, x :: S => (alt_sublist false S).cons₂ x
  | false, x :: S => (alt_sublist true S).cons x

theorem sweep_tail : Sweep List.tail (alt false) := by
  refine ⟨rfl, ?_⟩
  intro R hR
  match R with
  | [_] => rfl
  | _ :: _ :: _ => rfl

theorem sweep_nil : Sweep (fun _ => []) (fun _ => []) := ⟨rfl, fun _ _ => rfl⟩

theorem sweep_filter (q : KV → Bool) : Sweep (List.dropWhile q) (List.filter fun e => !q e) := by
  refine ⟨rfl, ?_⟩
  intro R h
  clear h
  induction R with
  | nil => rfl
  | cons x R ih' =>
    cases hq : q x with
    | true =>
      rw [List.dropWhile_cons_of_pos hq, List.filter_cons_of_neg (by simp [hq])]
      exact ih'
    | false => rw [List.dropWhile_cons_of_neg (by simp [hq]), List.filter_cons_of_pos (by simp [hq])]

/-! ### What a loop sees -/

theorem mapM_ok {α β} {f : α → C β} {g : α → β} : ∀ {l : List α}, (∀ x ∈ l, f x = .ok (g x)) → l.mapM f = .ok (l.map g)
  | [], _ => rfl
  | x :: l, h => by
    rw [List.mapM_cons, h x (by simp), mapM_ok (l := l) (fun y hy => h y (by simp [hy]))]
    rfl

/-- The entries with their iterators. -/
def entriesFrom : Nat → List (List KV) → List Seen
  | _, [] => []
  | b, S :: Ss => (S.zipIdx.map fun e => (mkIter b e.2, e.1)) ++ entriesFrom (b + 1) Ss

theorem entriesFrom_kvs : ∀ (Ss : List (List KV)) (b : Nat), kvs (entriesFrom b Ss) = Ss.flatten
  | [], b => rfl
  | S :: Ss, b => by
    have := entriesFrom_kvs Ss (b + 1)
    unfold kvs at this
    simp only [kvs, entriesFrom, List.map_append, this, List.flatten_cons, List.map_map]
    congr 1
    rw [show (Prod.snd ∘ fun e : KV × Nat => (mkIter b e.2, e.1)) = Prod.fst from rfl]
    exact List.zipIdx_map_fst 0 S

theorem alt_zipIdx {α} : ∀ (S : List α) (k : Nat),
    ((S.zipIdx k).filter fun e => e.2 % 2 == 1).map Prod.fst = alt (decide (k % 2 = 1)) S
  | [], k => by simp [alt]
  | x :: S, k => by
    have := alt_zipIdx S (k + 1)
    rw [List.zipIdx_cons]
    by_cases hk : k % 2 = 1
    · rw [List.filter_cons_of_pos (by simpa using hk), List.map_cons, this]
      rw [show decide (k % 2 = 1) = true by simpa using hk, show decide ((k + 1) % 2 = 1) = false by simp; omega]
      rfl
    · rw [List.filter_cons_of_neg (by simpa using hk), this]
      rw [show decide (k % 2 = 1) = false by simpa using hk, show decide ((k + 1) % 2 = 1) = true by simp; omega]
      rfl

theorem oddPos_eq (it : Iter) (e : KV) : oddPos (it, e) = (iterIndex it % 2 == 1) := by
  unfold oddPos
  exact Eq.refl _

theorem entriesFrom_odd {n : Nat} (hn32 : n < 2^32) (Ss : List (List KV)) : ∀ (b : Nat), SizeLe Ss n → b + Ss.length ≤ 2^32 →
    kvs ((entriesFrom b Ss).filter oddPos) = (Ss.map (alt false)).flatten := by
  induction Ss with
  | nil => intro b _ _; rfl
  | cons S Ss ih =>
    intro b hn hb
    simp only [List.length_cons] at hb
    have hS := hn S (by simp)
    have := ih (b + 1) (fun T hT => hn T (by simp [hT])) (by omega)
    unfold kvs at this
    simp only [kvs, entriesFrom, List.filter_append, List.map_append, this, List.map_cons, List.flatten_cons]
    congr 1
    rw [List.filter_map, List.map_map]
    rw [show (Prod.snd ∘ fun e : KV × Nat => (mkIter b e.2, e.1)) = Prod.fst from rfl]
    have e : List.filter (oddPos ∘ fun e : KV × Nat => (mkIter b e.2, e.1)) (S.zipIdx 0) =
        S.zipIdx.filter fun e => e.2 % 2 == 1 := by
      apply List.filter_congr
      intro x hx
      have hx2 := List.snd_lt_of_mem_zipIdx hx
      have hi : iterIndex (mkIter b x.2) = x.2 := iterIndex_mk (by omega) (by omega)
      rw [Function.comp_apply, oddPos_eq, hi]
    rw [e]
    exact alt_zipIdx S 0

theorem entriesFrom_length : ∀ (Ss : List (List KV)) (b : Nat), (entriesFrom b Ss).length = (Ss.map List.length).sum
  | [], b => rfl
  | S :: Ss, b => by simp [entriesFrom, entriesFrom_length Ss (b + 1)]

theorem entriesFrom_iters {c : HCfg} {h Ss} (hv : HView c h Ss) : (entriesFrom 0 Ss).map Prod.fst = allIters h := by
  have key : ∀ (T : List (List KV)) (b : Nat), (∀ i (hi : i < T.length), bsize h (b + i) = T[i].length) →
      (entriesFrom b T).map Prod.fst =
        (List.range' b T.length).flatMap fun j => (List.range (bsize h j)).map (mkIter j) := by
    intro T
    induction T with
    | nil => intro b _; rfl
    | cons S T ih =>
      intro b hb
      rw [List.length_cons, List.range'_succ, List.flatMap_cons, ← ih (b + 1) (fun i hi => by
        have := hb (i + 1) (by simpa using hi)
        rw [show b + 1 + i = b + (i + 1) by omega, this]
        rfl)]
      have h0 := hb 0 (by simp)
      simp only [Nat.add_zero, List.getElem_cons_zero] at h0
      simp only [entriesFrom, List.map_append, List.map_map]
      congr 1
      rw [h0, show (Prod.fst ∘ fun e : KV × Nat => (mkIter b e.2, e.1)) = (mkIter b) ∘ Prod.snd from rfl, ← List.map_map,
        List.zipIdx_map_snd, List.range_eq_range']
  rw [key Ss 0 (fun i hi => by rw [Nat.zero_add]; exact bsize_view hv hi)]
  unfold allIters
  rw [hv.len, List.range_eq_range']
  rfl

theorem mem_entriesFrom : ∀ (Ss : List (List KV)) (b : Nat) (x : Seen), x ∈ entriesFrom b Ss →
    ∃ (j : Nat) (hj : j < Ss.length) (i : Nat) (hi : i < Ss[j].length), x = (mkIter (b + j) i, Ss[j][i])
  | [], _, _, h => by simp [entriesFrom] at h
  | S :: Ss, b, x, h => by
    rcases List.mem_append.1 h with h | h
    · obtain ⟨e, he, rfl⟩ := List.mem_map.1 h
      have := List.mem_zipIdx' he
      exact ⟨0, by simp, e.2, this.1, by rw [Nat.add_zero]; exact congrArg (Prod.mk _) this.2⟩
    · obtain ⟨j, hj, i, hi, rfl⟩ := mem_entriesFrom Ss (b + 1) x h
      exact ⟨j + 1, by simpa using hj, i, by simpa using hi, by rw [show b + (j + 1) = b + 1 + j by omega]; rfl⟩

theorem mapM_map' {α β γ} (f : β → C γ) (g : α → β) : ∀ (l : List α), (l.map g).mapM f = l.mapM fun x => f (g x)
  | [] => rfl
  | x :: l => by rw [List.map_cons, List.mapM_cons, List.mapM_cons, mapM_map' f g l]

theorem seen_spec {c : HCfg} {h Ss} (hv : HView c h Ss) {n : Nat} (hn : SizeLe Ss n) (hn32 : n < 2^32)
    (hk : n * c.ksz < 2^64) (hvz : n * c.vsz < 2^64) {fuel : Nat} (hf : (entriesFrom 0 Ss).length < fuel) :
    seen c h fuel = .ok (entriesFrom 0 Ss) := by
  have hi := entriesFrom_iters hv
  unfold seen
  rw [foreach_spec hv.pos hv.small (fun b => bsize_lt hv hn hn32) fuel (by rw [← hi]; simpa using hf), ← hi]
  simp only [ok_bindE]
  rw [mapM_map', mapM_ok (g := id)]
  · rw [List.map_id]
  · intro x hx
    obtain ⟨j, hj, i, hi, rfl⟩ := mem_entriesFrom Ss 0 x hx
    have e := entry_spec hv hn hn32 hk hvz hj hi
    rw [Nat.zero_add]
    simp only [e.2.1, e.2.2, ok_bindE]
    rfl

theorem lookup_flatten {c : HCfg} (hc : HCfgOk c) {h Ss} (hv : HView c h Ss) (k : List Byte) :
    lookup c.cmp Ss.flatten k = hlook c Ss k := by
  have hb := bidx_lt hv k
  have hbh : bidx c Ss k < h.length := by rw [hv.len]; exact hb
  have e1 : hlook c Ss k = lookup c.cmp Ss[bidx c Ss k] k := by unfold hlook; rw [getD_lt hb]
  rw [e1]
  cases hl : lookup c.cmp Ss.flatten k with
  | some v =>
    unfold lookup at hl
    obtain ⟨e, he, rfl⟩ := Option.map_eq_some_iff.1 hl
    have h1 : c.cmp k e.1 = 0 := by simpa using List.find?_some he
    obtain ⟨S, hS, heS⟩ := List.mem_flatten.1 (List.mem_of_find?_eq_some he)
    obtain ⟨i, hi, rfl⟩ := List.getElem_of_mem hS
    have h2 := hv.home i hi e heS
    rw [← hc.hash _ _ h1, hv.len] at h2
    have h3 : bidx c Ss k = i := h2
    symm
    rw [lookup_some hc.cmp (hv.view _ hbh).sorted]
    exact ⟨e, by simpa [h3] using heS, h1, rfl⟩
  | none =>
    symm
    cases hl2 : lookup c.cmp Ss[bidx c Ss k] k with
    | none => rfl
    | some v =>
      obtain ⟨e, he, h1, _⟩ := (lookup_some hc.cmp (hv.view _ hbh).sorted).1 hl2
      unfold lookup at hl
      rw [Option.map_eq_none_iff, List.find?_eq_none] at hl
      exact absurd h1 (by simpa using hl e (List.mem_flatten.2 ⟨_, List.getElem_mem hb, he⟩))

theorem filter_flatten' {q : KV → Bool} (Ss : List (List KV)) : (Ss.map (List.filter q)).flatten = Ss.flatten.filter q := by
  rw [List.filter_flatten]

theorem sizeLe_total {Ss : List (List KV)} : SizeLe Ss (entriesFrom 0 Ss).length := by
  intro S hS
  rw [entriesFrom_length]
  induction Ss with
  | nil => simp at hS
  | cons T Ss ih =>
    rcases List.mem_cons.1 hS with rfl | hS
    · simp
    · have := ih hS; simp; omega

/-- A map reached by a history, what a loop sees in it, and what a loop with a given body leaves. -/
theorem hbmap_loop_helper (c : HCfg) (hc : HCfgOk c) (n : Nat) (h0 : 0 < n) (hn : n < 2^32) (ops : List Op)
    (h32 : ops.length < 2^32) (hk : (2 * ops.length + 4) * c.ksz < 2^64) (hv : (2 * ops.length + 4) * c.vsz < 2^64)
    (hop : ∀ op ∈ ops, OpOk c.toCfg op) :
    ∃ h rs M E, ∃ Ss : List (List KV), hrun c (hinit n) ops = .ok (h, rs) ∧ HSteps c.cmp empty ops M rs ∧
      (∀ fuel, E.length < fuel → seen c h fuel = .ok E) ∧ lookup c.cmp (kvs E) = M ∧
      E = entriesFrom 0 Ss ∧ SizeLe Ss ops.length ∧ Ss.length < 2^32 ∧
      ∀ (body : Nat → List BM → Iter → C (List BM)) (f F : List KV → List KV), Sweep f F → (∀ S, (F S).Sublist S) →
        (∀ N m, N < 2^32 → N * c.ksz < 2^64 → N * c.vsz < 2^64 → N < m → BodyOk c N (body m) f) →
        ∀ fuel m, E.length < fuel → E.length < m →
        ∃ h' E', foreachBody (body m) h fuel = .ok h' ∧ (∀ fuel, E.length < fuel → seen c h' fuel = .ok E') ∧
          kvs E' = (Ss.map F).flatten ∧ ∀ k, hget c h' k = .ok (lookup c.cmp (kvs E') k) := by
  obtain ⟨h, rs, Ss, r1, r2, r3, r4, r5⟩ := hrun_spec hc ops (hinit n) (List.replicate n []) 0 (hinit_view hc h0 hn)
    (by intro S hS; rw [List.eq_of_mem_replicate hS]; simp) (by simpa using h32) (by simpa using hk)
    (by simpa using hv) hop
  simp only [Nat.zero_add] at r4
  have he : hlook c (List.replicate n []) = empty := by
    funext k
    simp [hlook, lookup, empty, List.getD_eq_getElem?_getD]
    rw [List.getElem?_replicate]
    split <;> simp
  rw [he] at r2
  have hk0 : ops.length * c.ksz < 2^64 := mul_lt_of hk (by omega)
  have hv0 : ops.length * c.vsz < 2^64 := mul_lt_of hv (by omega)
  have hsm := r3.small
  have hlen := r3.len
  refine ⟨h, rs, _, entriesFrom 0 Ss, Ss, r1, r2, fun fuel hf => seen_spec r3 r4 h32 hk0 hv0 hf, ?_, rfl, r4, by omega, ?_⟩
  · funext k
    rw [entriesFrom_kvs]
    exact lookup_flatten hc r3 k
  · intro body f F hS hsub hB fuel m hf hm
    have hN : SizeLe Ss (min ops.length (entriesFrom 0 Ss).length) := fun S hS => by
      have := r4 S hS
      have := sizeLe_total S hS
      omega
    obtain ⟨h', g1, g2⟩ := foreachBody_spec (by omega)
      (hB (min ops.length (entriesFrom 0 Ss).length) m (by omega) (mul_lt_of hk0 (by omega)) (mul_lt_of hv0 (by omega)) (by omega))
      hS r3 hN (fuel := fuel) (by rw [entriesFrom_length] at hf; simpa [remain] using hf)
    have hF : SizeLe (Ss.map F) ops.length := by
      intro S hS
      obtain ⟨T, hT, rfl⟩ := List.mem_map.1 hS
      exact Nat.le_trans (hsub T).length_le (r4 T hT)
    have hle : (entriesFrom 0 (Ss.map F)).length ≤ (entriesFrom 0 Ss).length := by
      rw [entriesFrom_length, entriesFrom_length, List.map_map]
      generalize Ss = Ts
      induction Ts with
      | nil => simp
      | cons T Ts ih =>
        have := (hsub T).length_le
        simp only [List.map_cons, List.sum_cons, Function.comp_apply] at ih ⊢
        omega
    refine ⟨h', _, g1, fun fuel hf => seen_spec g2 hF h32 hk0 hv0 (by omega), entriesFrom_kvs _ _, fun k => ?_⟩
    rw [entriesFrom_kvs, lookup_flatten hc g2]
    exact hget_spec hc g2 hF h32 hk0 hv0 k

end Ulz.Bmap

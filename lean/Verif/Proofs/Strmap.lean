import Verif.Spec.Strmap
import Verif.Proofs.Bmap
/-! Lemmas about maps with strings as keys. -/
namespace Ulz.Strmap
open Ulz.Bmap (Cfg BM Op Res)
open Ulz.Bmap.Spec (View lookup CfgOk OpOk BsearchOk)
open Ulz.Tglist (leVal leBytes)
open Ulz.Sblist (mul_lt_of)
open Spec

theorem strcmp_refl : ∀ s, strcmp s s = 0
  | [] => rfl
  | a :: s => by rw [strcmp, if_pos rfl]; exact strcmp_refl s

theorem strcmp_zero : ∀ {s t}, strcmp s t = 0 → s = t
  | [], [], _ => rfl
  | [], _ :: _, h => by simp [strcmp] at h
  | _ :: _, [], h => by simp [strcmp] at h
  | a :: s, b :: t, h => by
    rw [strcmp] at h
    by_cases e : a = b
    · rw [if_pos e] at h
      rw [e, strcmp_zero h]
    · rw [if_neg e] at h
      split at h <;> simp at h

theorem strcmp_flip : ∀ s t, strcmp s t = - strcmp t s
  | [], [] => rfl
  | [], _ :: _ => rfl
  | _ :: _, [] => rfl
  | a :: s, b :: t => by
    by_cases e : a = b
    · subst e
      rw [strcmp, strcmp, if_pos rfl, if_pos rfl]; exact strcmp_flip s t
    · rw [strcmp, if_neg e, strcmp, if_neg (c := b = a) (fun h => e h.symm)]
      have : a.toNat ≠ b.toNat := fun h => e (BitVec.eq_of_toNat_eq h)
      by_cases h : a.toNat < b.toNat
      · rw [if_pos h, if_neg (by omega)]
      · rw [if_neg h, if_pos (by omega)]; rfl

theorem strcmp_trans : ∀ s t u, strcmp s t ≤ 0 → strcmp t u ≤ 0 → strcmp s u ≤ 0
  | [], _, [], _, _ => by simp [strcmp]
  | [], _, _ :: _, _, _ => by simp [strcmp]
  | _ :: _, [], _, h, _ => by simp [strcmp] at h
  | _ :: _, _ :: _, [], _, h => by simp [strcmp] at h
  | a :: s, b :: t, c :: u, h1, h2 => by
    rw [strcmp] at h1 h2 ⊢
    have l1 : a = b ∧ strcmp s t ≤ 0 ∨ a.toNat < b.toNat := by
      by_cases e : a = b
      · rw [if_pos e] at h1; exact .inl ⟨e, h1⟩
      · rw [if_neg e] at h1
        by_cases h : a.toNat < b.toNat
        · exact .inr h
        · rw [if_neg h] at h1; omega
    have l2 : b = c ∧ strcmp t u ≤ 0 ∨ b.toNat < c.toNat := by
      by_cases e : b = c
      · rw [if_pos e] at h2; exact .inl ⟨e, h2⟩
      · rw [if_neg e] at h2
        by_cases h : b.toNat < c.toNat
        · exact .inr h
        · rw [if_neg h] at h2; omega
    have key : a.toNat < c.toNat ∨ a = c ∧ strcmp s u ≤ 0 := by
      rcases l1 with ⟨rfl, l1⟩ | l1
      · rcases l2 with ⟨rfl, l2⟩ | l2
        · exact .inr ⟨rfl, strcmp_trans s t u l1 l2⟩
        · exact .inl l2
      · rcases l2 with ⟨rfl, l2⟩ | l2
        · exact .inl l1
        · exact .inl (by omega)
    rcases key with h | ⟨rfl, h⟩
    · rw [if_neg (fun e => by rw [e] at h; omega), if_pos h]; decide
    · rw [if_pos rfl]; exact h

variable {bs : List Byte → List (List Byte) → (List Byte → List Byte → Int) → Option Nat} {vsz : Nat}

theorem cfg_ok (hbs : BsearchOk bs) (hv : 0 < vsz) (μ : Mem) : CfgOk (cfg bs vsz μ) where
  ksz := by show 0 < 8; decide
  vsz := hv
  bs := hbs
  cmp := by
    refine ⟨fun a => strcmp_refl _, fun a b => ?_, fun a b c => strcmp_trans _ _ _⟩
    show strcmp _ _ < 0 ↔ strcmp _ _ > 0
    rw [strcmp_flip]; omega

theorem cmp_zero {μ : Mem} {x y : List Byte} : (cfg bs vsz μ).cmp x y = 0 ↔ μ (leVal x) = μ (leVal y) :=
  ⟨fun h => strcmp_zero h, fun h => by show strcmp _ _ = 0; rw [h]; exact strcmp_refl _⟩

/-- The map from strings that a list of entries stands for. -/
def smap (μ : Mem) (S : List (List Byte × List Byte)) : SMap := fun s => (S.find? fun e => s = μ (leVal e.1)).map Prod.snd

theorem smap_lookup (μ : Mem) (S : List (List Byte × List Byte)) (k : List Byte) :
    lookup (cfg bs vsz μ).cmp S k = smap μ S (μ (leVal k)) := by
  unfold lookup smap
  congr 2
  funext e
  simp [cmp_zero]

theorem ptr_exists (a : Nat) : ∃ k, leVal k = a :=
  ⟨leBytes a a, Tglist.leVal_leBytes a a (Nat.lt_of_lt_of_le (Nat.lt_pow_self (by omega)) (Nat.le_refl _))⟩

theorem smap_off {μ : Mem} {S : List (List Byte × List Byte)} {s : List Byte} (h : ∀ a, μ a ≠ s) : smap μ S s = none := by
  unfold smap
  rw [Option.map_eq_none_iff, List.find?_eq_none]
  intro e _ he
  exact h _ (by simpa using Eq.symm (of_decide_eq_true he))

theorem smap_ext {μ : Mem} {S : List (List Byte × List Byte)} {M : SMap} (h1 : ∀ s, (∀ a, μ a ≠ s) → M s = none)
    (h2 : ∀ k, lookup (cfg bs vsz μ).cmp S k = M (μ (leVal k))) : smap μ S = M := by
  funext s
  by_cases h : ∃ a, μ a = s
  · obtain ⟨a, rfl⟩ := h
    obtain ⟨k, rfl⟩ := ptr_exists a
    rw [← h2, smap_lookup]
  · have h : ∀ a, μ a ≠ s := fun a e => h ⟨a, e⟩
    rw [h1 s h, smap_off h]

theorem smap_move {μ μ' : Mem} {S : List (List Byte × List Byte)} (h : ∀ e ∈ S, μ' (leVal e.1) = μ (leVal e.1)) :
    smap μ' S = smap μ S := by
  funext s
  unfold smap
  congr 1
  induction S with
  | nil => rfl
  | cons e S ih =>
    rw [List.find?_cons, List.find?_cons, h e (by simp), ih fun x hx => h x (by simp [hx])]

theorem view_move {μ μ' : Mem} {b : BM} {S : List (List Byte × List Byte)} (hv : View (cfg bs vsz μ) b S)
    (h : ∀ e ∈ S, μ' (leVal e.1) = μ (leVal e.1)) : View (cfg bs vsz μ') b S := by
  refine ⟨hv.keys, hv.values, ?_⟩
  refine List.Pairwise.imp_of_mem ?_ hv.sorted
  intro x y hx hy hxy
  show strcmp _ _ < 0
  rw [h x hx, h y hy]; exact hxy

theorem run_spec (hbs : BsearchOk bs) (hv0 : 0 < vsz) : ∀ (ops : List (Mem × Op)) (μ : Mem) (b : BM) (S : List (List Byte × List Byte)),
    View (cfg bs vsz μ) b S → (2 * (S.length + ops.length) + 4) * 8 < 2^64 → (2 * (S.length + ops.length) + 4) * vsz < 2^64 →
    (∀ q ∈ ops, OpOk (cfg bs vsz q.1) q.2) → Stable (cfg bs vsz) μ b ops →
    ∃ b' rs S' μ', run (cfg bs vsz) b ops = .ok (b', rs) ∧ Steps (smap μ S) ops (smap μ' S') rs ∧ View (cfg bs vsz μ') b' S' ∧
      S'.length ≤ S.length + ops.length := by
  intro ops
  induction ops with
  | nil => intro μ b S h _ _ _ _; exact ⟨b, [], S, μ, rfl, .nil, h, by simp⟩
  | cons q ops ih =>
    obtain ⟨μ1, op⟩ := q
    intro μ b S h hk hv hop hst
    simp only [List.length_cons] at hk hv
    have hkc : b.keys.count = S.length := by rw [h.keys.count]; simp
    obtain ⟨st1, st2⟩ := hst
    have hmv : ∀ e ∈ S, μ1 (leVal e.1) = μ (leVal e.1) := by
      intro e he
      obtain ⟨i, hi, rfl⟩ := List.getElem_of_mem he
      refine st1 i _ (by omega) ?_
      have := Tglist.get_spec h.keys (show b.keys.count * 8 < 2^64 by rw [hkc]; exact mul_lt_of hk (by omega)) (i := i) (by simpa using hi)
      rw [List.getElem_map] at this
      exact this
    have h1 := view_move h hmv
    have hM := smap_move hmv
    obtain ⟨b1, r, S1, s1, s2, s3, s4⟩ := Bmap.step_spec (cfg_ok hbs hv0 μ1) h1 (show (2 * b.keys.count + 4) * 8 < _ from mul_lt_of hk (by omega))
      (show (2 * b.keys.count + 4) * vsz < _ from mul_lt_of hv (by omega)) op (hop _ List.mem_cons_self)
    have hstep : Step (smap μ S) (μ1, op) (smap μ1 S1) r := by
      rw [← hM]
      have look : ∀ k, lookup (cfg bs vsz μ1).cmp S k = smap μ1 S (μ1 (leVal k)) := smap_lookup μ1 S
      have off : ∀ s, (∀ a, μ1 a ≠ s) → smap μ1 S s = none := fun s => smap_off
      generalize hL : lookup (cfg bs vsz μ1).cmp S = L at s2 look
      generalize hL' : lookup (cfg bs vsz μ1).cmp S1 = L' at s2
      cases s2 with
      | @insert k v a1 a2 i =>
        rw [smap_ext (S := S1) (bs := bs) (vsz := vsz) (M := upd (smap μ1 S) (μ1 (leVal k)) v)
          (fun s hs => by rw [upd, if_neg (fun e => hs _ e.symm), off s hs])
          (fun k' => by
            rw [hL', Bmap.Spec.upd, upd]
            by_cases h : μ1 (leVal k') = μ1 (leVal k)
            · rw [if_pos (cmp_zero.2 h), if_pos h]
            · rw [if_neg (fun hh => h (cmp_zero.1 hh)), if_neg h, look])]
        exact .insert
      | @insertFail k v a1 a2 r h1 h2 =>
        rw [smap_ext (S := S1) (bs := bs) (vsz := vsz) (M := smap μ1 S) off (fun k' => by rw [hL', look])]
        exact .insertFail (by rw [← look]; exact h1) h2
      | @get k =>
        rw [smap_ext (S := S1) (bs := bs) (vsz := vsz) (M := smap μ1 S) off (fun k' => by rw [hL', look]), look]
        exact .get
      | @contains k =>
        rw [smap_ext (S := S1) (bs := bs) (vsz := vsz) (M := smap μ1 S) off (fun k' => by rw [hL', look]), look]
        exact .contains
      | @del k =>
        rw [smap_ext (S := S1) (bs := bs) (vsz := vsz) (M := rem (smap μ1 S) (μ1 (leVal k)))
          (fun s hs => by rw [rem, if_neg (fun e => hs _ e.symm), off s hs])
          (fun k' => by
            rw [hL', Bmap.Spec.rem, rem]
            by_cases h : μ1 (leVal k') = μ1 (leVal k)
            · rw [if_pos (cmp_zero.2 h), if_pos h]
            · rw [if_neg (fun hh => h (cmp_zero.1 hh)), if_neg h, look]), look]
        exact .del
    obtain ⟨b2, rs, S2, μ2, r1, r2, r3, r4⟩ := ih μ1 b1 S1 s3 (mul_lt_of hk (by omega)) (mul_lt_of hv (by omega))
      (fun q hq => hop q (List.mem_cons_of_mem _ hq)) (st2 _ _ s1)
    refine ⟨b2, r :: rs, S2, μ2, ?_, .cons hstep r2, r3, by simp only [List.length_cons]; omega⟩
    rw [run, s1, ok_bind]
    simp only
    rw [r1]; rfl

/-! ### A key that changes -/

theorem view_one {μ : Mem} {b : BM} {k v : List Byte} (h : View (cfg bs vsz μ) b [(k, v)]) (μ' : Mem) : View (cfg bs vsz μ') b [(k, v)] :=
  ⟨h.keys, h.values, List.pairwise_singleton _ _⟩

theorem first_insert (hbs : BsearchOk bs) (hv0 : 0 < vsz) (hvs : vsz < 2^59) (μ : Mem) (k v : List Byte) (hk : k.length = 8)
    (hv : v.length = vsz) (f1 f2 : Nat → Byte) :
    ∃ b i, Bmap.insert (cfg bs vsz μ) (some f1) (some f2) Bmap.init k v = .ok (b, some i) ∧ View (cfg bs vsz μ) b [(k, v)] := by
  have hc := cfg_ok hbs hv0 μ
  have h := Bmap.init_view hc
  unfold Bmap.insert
  rcases Bmap.find_spec hc h (by show 0 * 8 < _; decide) k with ⟨i, hi, _⟩ | ⟨e, _, _⟩
  · simp at hi
  · rw [e, ok_bind]
    simp only
    rcases Bmap.nocheck_spec hc h (by show (2 * 0 + 4) * 8 < _; decide) (by show (2 * 0 + 4) * vsz < _; omega) (some f1) (some f2) k v hk hv
      (by simp) with ⟨b, p, _, _, e1, _, h1, _⟩ | ⟨h1, _⟩ | ⟨_, _, _, h1, _⟩
    · exact ⟨b, p, by rw [e1]; rfl, by simpa using h1⟩
    · cases h1
    · cases h1

theorem again_insert (hbs : BsearchOk bs) (hv0 : 0 < vsz) (hvs : vsz < 2^59) {μ : Mem} {b : BM} {k v0 : List Byte}
    (h : View (cfg bs vsz μ) b [(k, v0)]) (v : List Byte) (hv : v.length = vsz) (a1 a2 : Alloc) :
    ∃ b', Bmap.insert (cfg bs vsz μ) a1 a2 b k v = .ok (b', some 0) ∧ View (cfg bs vsz μ) b' [(k, v)] := by
  have hc := cfg_ok hbs hv0 μ
  have hkc : b.keys.count = 1 := by rw [h.keys.count]; rfl
  have hvc : b.values.count = 1 := by rw [h.values.count]; rfl
  unfold Bmap.insert
  rcases Bmap.find_spec hc h (by rw [hkc]; show 1 * 8 < _; decide) k with ⟨i, hi, e, _⟩ | ⟨_, h1, _⟩
  · simp only [List.length_cons, List.length_nil] at hi
    obtain rfl : i = 0 := by omega
    rw [e, ok_bind]
    obtain ⟨vs, e1, h1, _⟩ := Bmap.set_view hc h (by rw [hvc]; show 1 * vsz < _; omega) (i := 0) (by simp) v hv
    simp only
    rw [e1]
    exact ⟨_, rfl, by simpa using h1⟩
  · exact absurd (hc.cmp.refl k) (h1 (k, v0) (by simp))

/-- Insertions that all pass the same pointer. -/
theorem same_ptr (hbs : BsearchOk bs) (hv0 : 0 < vsz) (hvs : vsz < 2^59) (k : List Byte) : ∀ (xs : List (Mem × List Byte)) (a1 a2 : Nat → Alloc)
    (n : Nat) (μ : Mem) (b : BM) (v0 : List Byte), View (cfg bs vsz μ) b [(k, v0)] → (∀ x ∈ xs, x.2.length = vsz) →
    ∃ b' rs, run (cfg bs vsz) b (xs.mapIdx fun i x => (x.1, .insert k x.2 (a1 (n + i)) (a2 (n + i)))) = .ok (b', rs) ∧
      ∀ μ, View (cfg bs vsz μ) b' [(k, (xs.getLast?.map Prod.snd).getD v0)]
  | [], _, _, _, _, b, v0, h, _ => ⟨b, [], rfl, fun μ => view_one h μ⟩
  | (μ1, v) :: xs, a1, a2, n, μ, b, v0, h, hx => by
    obtain ⟨b1, e1, h1⟩ := again_insert hbs hv0 hvs (view_one h μ1) v (hx (μ1, v) (by simp)) (a1 n) (a2 n)
    obtain ⟨b2, rs, e2, h2⟩ := same_ptr hbs hv0 hvs k xs a1 a2 (n + 1) μ1 b1 v h1 (fun x hx' => hx x (by simp [hx']))
    refine ⟨b2, .idx (some 0) :: rs, ?_, fun μ => ?_⟩
    · rw [List.mapIdx_cons, run, Bmap.step, Nat.add_zero, e1]
      simp only [ok_bind, pure_eq_ok]
      have : (fun (i : Nat) (x : Mem × List Byte) => (x.1, Op.insert k x.2 (a1 (n + (i + 1))) (a2 (n + (i + 1))))) =
          fun i x => (x.1, .insert k x.2 (a1 (n + 1 + i)) (a2 (n + 1 + i))) := by
        funext i x; rw [show n + (i + 1) = n + 1 + i by omega]
      rw [this, e2]; rfl
    · have := h2 μ
      cases xs with
      | nil => exact this
      | cons x xs =>
        rw [List.getLast?_cons_cons]
        rw [List.getLast?_eq_some_getLast (by simp)] at this ⊢
        exact this

/-- `Stable` by evaluation, for examples. -/
def stableB (c : Mem → Cfg) : Mem → BM → List (Mem × Op) → Bool
  | _, _, [] => true
  | μ, b, (μ', op) :: ops =>
    ((List.range b.keys.count).all fun i => match Bmap.getkey (c μ) b i with | .ok k => μ' (leVal k) == μ (leVal k) | .error _ => true) &&
    match Bmap.step (c μ') b op with | .ok (b', _) => stableB c μ' b' ops | .error _ => true

theorem stableB_ok (c : Mem → Cfg) : ∀ (ops : List (Mem × Op)) (μ : Mem) (b : BM), stableB c μ b ops = true → Stable c μ b ops
  | [], _, _, _ => trivial
  | (μ', op) :: ops, μ, b, h => by
    rw [stableB, Bool.and_eq_true] at h
    refine ⟨fun i k hi hk => ?_, fun b' r hs => ?_⟩
    · have := List.all_eq_true.1 h.1 i (List.mem_range.2 hi)
      rw [hk] at this
      simpa using this
    · have := h.2
      rw [hs] at this
      exact stableB_ok c ops μ' b' this

end Ulz.Strmap

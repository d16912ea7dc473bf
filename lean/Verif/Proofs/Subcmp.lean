import Verif.Spec.Subcmp
import Verif.Props.Bmap
/-! Lemmas about comparison by subtraction. -/
namespace Ulz.Subcmp
open Ulz.Bmap (BM Op Res KV)
open Ulz.Bmap.Spec (View lookup CfgOk OpOk)
open Ulz.Tglist (TG)
open Ulz.Sblist (mul_lt_of)
open Ulz.Sblist.Spec (TotalPreorder)
open Spec

variable {bs : List Byte → List (List Byte) → (List Byte → List Byte → C Int) → C (Option Nat)} {vsz : Nat}

theorem val_range (x : List Byte) : -2147483648 ≤ val x ∧ val x ≤ 2147483647 := by
  unfold val
  have h1 := (BitVec.ofNat 32 (Tglist.leVal x)).le_two_mul_toInt
  have h2 := (BitVec.ofNat 32 (Tglist.leVal x)).two_mul_toInt_lt
  omega

theorem val_int4 {i : Int} (h : -2147483648 ≤ i ∧ i ≤ 2147483647) : val (int4 i) = i := by
  unfold val int4
  rw [Tglist.leVal_leBytes 4 _ (by have := (BitVec.ofInt 32 i).isLt; omega), BitVec.ofNat_toNat, BitVec.setWidth_eq, BitVec.toInt_ofInt]
  apply Int.bmod_eq_of_le <;> omega

/-- The comparison by value. -/
def icmp (a b : List Byte) : Int := val a - val b

theorem icmp_ok : TotalPreorder icmp := by
  refine ⟨?_, ?_, ?_⟩ <;> intros <;> simp only [icmp] at * <;> omega

/-- The difference does not overflow. -/
def near (a b : List Byte) : Prop := -2147483648 ≤ val a - val b ∧ val a - val b ≤ 2147483647

theorem intcmp_near {a b : List Byte} (h : near a b) : intcmp a b = .ok (icmp a b) := by
  unfold intcmp
  simp only
  rw [if_pos (show -2147483648 ≤ val a - val b ∧ val a - val b ≤ 2147483647 from h)]; rfl

theorem intcmp_far {a b : List Byte} (h : ¬ near a b) : intcmp a b = .error .overflow := by
  unfold intcmp
  simp only
  rw [if_neg (show ¬ (-2147483648 ≤ val a - val b ∧ val a - val b ≤ 2147483647) from h)]

open Classical in
/-- `bsearch` seen from a map with the comparison by value. -/
noncomputable def bs' (bs : List Byte → List (List Byte) → (List Byte → List Byte → C Int) → C (Option Nat)) (key : List Byte)
    (xs : List (List Byte)) (cmp : List Byte → List Byte → Int) : Option Nat :=
  if cmp = icmp ∧ ∀ x ∈ xs, near key x then (match bs key xs intcmp with | .ok r => r | .error _ => none) else Props.linSearch key xs cmp

theorem bs'_ok (hbs : BsearchOk bs) : Bmap.Spec.BsearchOk (bs' bs) := by
  intro key xs cmp hp
  unfold bs'
  by_cases h : cmp = icmp ∧ ∀ x ∈ xs, near key x
  · rw [if_pos h]
    obtain ⟨rfl, h⟩ := h
    rcases hbs key xs intcmp (icmp key) (fun x hx => intcmp_near (h x hx)) hp with ⟨i, hi, e, hz⟩ | ⟨e, hz⟩
    · rw [e]; exact ⟨hi, hz⟩
    · rw [e]; exact hz
  · rw [if_neg h]; exact Props.linSearch_ok key xs cmp hp

/-- The configuration with subtraction and the one with the comparison by value. -/
def cfgM (bs : List Byte → List (List Byte) → (List Byte → List Byte → C Int) → C (Option Nat)) (vsz : Nat) : Cfg := ⟨4, vsz, intcmp, bs⟩
noncomputable def cfgV (bs : List Byte → List (List Byte) → (List Byte → List Byte → C Int) → C (Option Nat)) (vsz : Nat) : Bmap.Cfg :=
  ⟨4, vsz, icmp, bs' bs⟩

theorem cfgV_ok (hbs : BsearchOk bs) (hv : 0 < vsz) : CfgOk (cfgV bs vsz) :=
  ⟨by show 0 < 4; decide, hv, icmp_ok, bs'_ok hbs⟩

/-- Keys that are in the map are near the given one. -/
def Near (k : List Byte) (S : List KV) : Prop := ∀ e ∈ S, near k e.1

theorem find_eq (hbs : BsearchOk bs) {b : BM} {S : List KV} (h : View (cfgV bs vsz) b S) (hk : b.keys.count * 4 < 2^64)
    {k : List Byte} (hn : Near k S) : find (cfgM bs vsz) b k = Bmap.find (cfgV bs vsz) b k := by
  unfold find Bmap.find
  have e : Bmap.keysList 4 b.keys = .ok (S.map Prod.fst) := Bmap.keysList_spec h.keys hk
  show (Bmap.keysList 4 b.keys >>= fun xs => bs k xs intcmp) = (Bmap.keysList 4 b.keys >>= fun xs => pure (bs' bs k xs icmp))
  rw [e, ok_bind, ok_bind]
  have hn' : ∀ x ∈ S.map Prod.fst, near k x := by
    intro x hx
    obtain ⟨e, he, rfl⟩ := List.mem_map.1 hx
    exact hn e he
  have hp : (S.map Prod.fst).Pairwise fun a b => (icmp k b).sign ≤ (icmp k a).sign := by
    rw [List.pairwise_map]
    refine h.sorted.imp ?_
    intro x y hxy
    have hxy : val x.1 - val y.1 < 0 := hxy
    have h1 : icmp k y.1 ≤ icmp k x.1 := by unfold icmp; omega
    rcases Int.lt_trichotomy (icmp k x.1) 0 with hx | hx | hx
    · rw [Int.sign_eq_neg_one_of_neg hx, Int.sign_eq_neg_one_of_neg (by omega)]; decide
    · rw [hx]
      rcases Int.lt_or_eq_of_le (show icmp k y.1 ≤ 0 by omega) with hy | hy
      · rw [Int.sign_eq_neg_one_of_neg hy]; decide
      · rw [hy]; decide
    · rw [Int.sign_eq_one_of_pos hx]
      rcases Int.lt_trichotomy (icmp k y.1) 0 with hy | hy | hy
      · rw [Int.sign_eq_neg_one_of_neg hy]; decide
      · rw [hy]; decide
      · rw [Int.sign_eq_one_of_pos hy]; decide
  have hd : bs' bs k (S.map Prod.fst) icmp = match bs k (S.map Prod.fst) intcmp with | .ok r => r | .error _ => none := by
    unfold bs'
    rw [if_pos ⟨rfl, hn'⟩]
  rw [hd]
  rcases hbs k (S.map Prod.fst) intcmp (icmp k) (fun x hx => intcmp_near (hn' x hx)) hp with ⟨i, hi, e, hz⟩ | ⟨e, hz⟩
  · rw [e]; rfl
  · rw [e]; rfl

theorem sortedPos_eq {isz : Nat} {l : TG} {o : List Byte} {cM : List Byte → List Byte → C Int} {cV : List Byte → List Byte → Int}
    (hc : ∀ i p, i < l.count → Tglist.get isz l i = .ok p → cM o p = .ok (cV o p)) : ∀ (fuel hi lo : Nat), hi ≤ lo → lo < l.count →
    sortedPos isz l o cM fuel hi lo = Tglist.sortedPos isz l o cV fuel hi lo
  | 0, _, _, _, _ => rfl
  | fuel + 1, hi, lo, h1, h2 => by
    rw [sortedPos, Tglist.sortedPos]
    cases hg : Tglist.get isz l (hi + (lo - hi) / 2) with
    | error e => rfl
    | ok p =>
      rw [ok_bindE, ok_bindE]
      rw [hc _ p (by omega) hg, ok_bindE]
      by_cases he : hi = lo
      · rw [if_pos he, if_pos he]
      · rw [if_neg he, if_neg he]
        simp only
        apply sortedPos_eq hc
        · generalize (if cV o p < 0 then _ else _ : Nat × Nat) = q
          split <;> omega
        · split
          · simp only; split <;> omega
          · split <;> simp only <;> omega

theorem insert_sorted_eq {isz : Nat} {l : TG} {o : List Byte} {cM : List Byte → List Byte → C Int} {cV : List Byte → List Byte → Int}
    (hc : ∀ i p, i < l.count → Tglist.get isz l i = .ok p → cM o p = .ok (cV o p)) (a : Alloc) :
    insert_sorted isz a l o cM = Tglist.insert_sorted isz a l o cV := by
  unfold insert_sorted Tglist.insert_sorted sortedIndex Tglist.sortedIndex
  by_cases h : l.count = 0
  · rw [if_pos h, if_pos h]
  · rw [if_neg h, if_neg h, sortedPos_eq hc _ _ _ (by omega) (by omega)]

theorem nocheck_eq {b : BM} {S : List KV} (h : View (cfgV bs vsz) b S) (hk : b.keys.count * 4 < 2^64) {k : List Byte} (hn : Near k S)
    (a1 a2 : Alloc) (v : List Byte) : insert_nocheck (cfgM bs vsz) a1 a2 b k v = Bmap.insert_nocheck (cfgV bs vsz) a1 a2 b k v := by
  have e : insert_sorted 4 a1 b.keys k intcmp = Tglist.insert_sorted 4 a1 b.keys k icmp := by
    apply insert_sorted_eq
    intro i p hi hg
    have hkc : b.keys.count = S.length := by rw [h.keys.count]; simp
    have hr : Tglist.Spec.Rep 4 b.keys (S.map Prod.fst) := h.keys
    rw [Tglist.get_spec hr hk (i := i) (by simp; omega)] at hg
    cases hg
    rw [List.getElem_map]
    exact intcmp_near (hn _ (List.getElem_mem _))
  show (insert_sorted 4 a1 b.keys k intcmp >>= _) = (Tglist.insert_sorted 4 a1 b.keys k icmp >>= _)
  rw [e]
  rfl

theorem step_eq (hbs : BsearchOk bs) {b : BM} {S : List KV} (h : View (cfgV bs vsz) b S) (hk : b.keys.count * 4 < 2^64)
    (op : Op) (hn : Near (key op) S) : step (cfgM bs vsz) b op = Bmap.step (cfgV bs vsz) b op := by
  have hf := find_eq hbs h hk hn
  cases op with
  | insert k v a1 a2 =>
    simp only [step, Bmap.step]; unfold insert Bmap.insert
    rw [show find (cfgM bs vsz) b k = _ from hf]
    simp only [nocheck_eq h hk (show Near k S from hn)]
    rfl
  | get k =>
    simp only [step, Bmap.step]; unfold get Bmap.get
    rw [show find (cfgM bs vsz) b k = _ from hf]
    rfl
  | contains k =>
    simp only [step, Bmap.step]
    rw [show find (cfgM bs vsz) b k = _ from hf]
    rfl
  | del k =>
    simp only [step, Bmap.step]
    rw [show find (cfgM bs vsz) b k = _ from hf]
    rfl

/-- The map from integers that a list of entries stands for. -/
def imap (S : List KV) : IMap := fun i => (S.find? fun e => i = val e.1).map Prod.snd

theorem imap_lookup (S : List KV) (k : List Byte) : lookup icmp S k = imap S (val k) := by
  unfold lookup imap
  congr 2
  funext e
  rw [decide_eq_decide]
  unfold icmp; omega

theorem imap_ext {S : List KV} {M : IMap} (h1 : ∀ i, ¬ (-2147483648 ≤ i ∧ i ≤ 2147483647) → M i = none)
    (h2 : ∀ k, lookup icmp S k = M (val k)) : imap S = M := by
  funext i
  by_cases h : -2147483648 ≤ i ∧ i ≤ 2147483647
  · have := h2 (int4 i)
    rw [imap_lookup, val_int4 h] at this
    exact this
  · rw [h1 i h]
    unfold imap
    rw [Option.map_eq_none_iff, List.find?_eq_none]
    intro e _ he
    have := val_range e.1
    rw [← of_decide_eq_true he] at this
    exact h this

theorem imap_off {S : List KV} {i : Int} (h : ¬ (-2147483648 ≤ i ∧ i ≤ 2147483647)) : imap S i = none := by
  unfold imap
  rw [Option.map_eq_none_iff, List.find?_eq_none]
  intro e _ he
  have := val_range e.1
  rw [← of_decide_eq_true he] at this
  exact h this

theorem lookup_some {S : List KV} {e : KV} (h : e ∈ S) : ∃ v, imap S (val e.1) = some v := by
  unfold imap
  cases hf : S.find? fun x => val e.1 = val x.1 with
  | none =>
    have := List.find?_eq_none.1 hf e h
    simp at this
  | some x => exact ⟨_, rfl⟩

theorem imap_mem {S : List KV} {i : Int} {v} (h : imap S i = some v) : ∃ e ∈ S, val e.1 = i := by
  unfold imap at h
  cases hf : S.find? fun x => i = val x.1 with
  | none => rw [hf] at h; cases h
  | some x =>
    have := List.find?_some hf
    exact ⟨x, List.mem_of_find?_eq_some hf, (of_decide_eq_true this).symm⟩

theorem lift_step {S S' : List KV} {op : Op} {r : Res} (h : Bmap.Spec.Step icmp (lookup icmp S) op (lookup icmp S') r) :
    Step (imap S) op (imap S') r := by
  have look : ∀ k, lookup icmp S k = imap S (val k) := imap_lookup S
  have off : ∀ i, ¬ (-2147483648 ≤ i ∧ i ≤ 2147483647) → imap S i = none := fun i => imap_off
  have cz : ∀ {x y}, icmp x y = 0 ↔ val x = val y := by intro x y; unfold icmp; omega
  generalize hL : lookup icmp S = L at h look
  generalize hL' : lookup icmp S' = L' at h
  cases h with
  | @insert k v a1 a2 i =>
    rw [imap_ext (S := S') (M := upd (imap S) (val k) v)
      (fun i hi => by rw [upd, if_neg (fun e : i = val k => hi (e ▸ val_range k)), off i hi])
      (fun k' => by
        rw [hL', Bmap.Spec.upd, upd]
        by_cases h : val k' = val k
        · rw [if_pos (cz.2 h), if_pos h]
        · rw [if_neg (fun hh => h (cz.1 hh)), if_neg h, look])]
    exact .insert
  | @insertFail k v a1 a2 r h1 h2 =>
    rw [imap_ext (S := S') (M := imap S) off (fun k' => by rw [hL', look])]
    exact .insertFail (by rw [← look]; exact h1) h2
  | @get k =>
    rw [imap_ext (S := S') (M := imap S) off (fun k' => by rw [hL', look]), look]
    exact .get
  | @contains k =>
    rw [imap_ext (S := S') (M := imap S) off (fun k' => by rw [hL', look]), look]
    exact .contains
  | @del k =>
    rw [imap_ext (S := S') (M := rem (imap S) (val k))
      (fun i hi => by rw [rem, if_neg (fun e : i = val k => hi (e ▸ val_range k)), off i hi])
      (fun k' => by
        rw [hL', Bmap.Spec.rem, rem]
        by_cases h : val k' = val k
        · rw [if_pos (cz.2 h), if_pos h]
        · rw [if_neg (fun hh => h (cz.1 hh)), if_neg h, look]), look]
    exact .del

/-- The keys in the map after a call were there before, or one is that of the call. -/
theorem keys_step {S S' : List KV} {op : Op} {r : Res} (h : Step (imap S) op (imap S') r) {e : KV} (he : e ∈ S') :
    val e.1 = val (key op) ∨ ∃ e' ∈ S, val e'.1 = val e.1 := by
  obtain ⟨v, hv⟩ := lookup_some he
  generalize hM : imap S = M at h
  generalize hM' : imap S' = M' at h hv
  have old : M (val e.1) = some v → ∃ e' ∈ S, val e'.1 = val e.1 := by
    intro h
    rw [← hM] at h
    exact imap_mem h
  cases h with
  | insert =>
    rw [upd] at hv
    split at hv
    · rename_i h; exact .inl h
    · exact .inr (old hv)
  | insertFail => exact .inr (old hv)
  | get => exact .inr (old hv)
  | contains => exact .inr (old hv)
  | del =>
    rw [rem] at hv
    split at hv
    · cases hv
    · exact .inr (old hv)

theorem run_spec (hbs : BsearchOk bs) (hv0 : 0 < vsz) : ∀ (ops : List Op) (b : BM) (S : List KV),
    View (cfgV bs vsz) b S → (2 * (S.length + ops.length) + 4) * 4 < 2^64 → (2 * (S.length + ops.length) + 4) * vsz < 2^64 →
    (∀ op ∈ ops, OpOk (cfgV bs vsz) op) → (∀ op ∈ ops, Near (key op) S) → (∀ p ∈ ops, ∀ q ∈ ops, near (key p) (key q)) →
    ∃ b' rs S', run (cfgM bs vsz) b ops = .ok (b', rs) ∧ Steps (imap S) ops (imap S') rs
  | [], b, S, _, _, _, _, _, _ => ⟨b, [], S, rfl, .nil⟩
  | op :: ops, b, S, h, hk, hv, hop, hn, hnn => by
    simp only [List.length_cons] at hk hv
    have hkc : b.keys.count = S.length := by rw [h.keys.count]; simp
    obtain ⟨b1, r, S1, s1, s2, s3, s4⟩ := Bmap.step_spec (cfgV_ok hbs hv0) h (show (2 * b.keys.count + 4) * 4 < _ from mul_lt_of hk (by omega))
      (show (2 * b.keys.count + 4) * vsz < _ from mul_lt_of hv (by omega)) op (hop _ List.mem_cons_self)
    have hs := lift_step s2
    have hn1 : ∀ p ∈ ops, Near (key p) S1 := by
      intro p hp e he
      rcases keys_step hs he with h1 | ⟨e', he', h1⟩
      · have := hnn p (List.mem_cons_of_mem _ hp) op List.mem_cons_self
        unfold near at this ⊢; rw [h1]; exact this
      · have := hn p (List.mem_cons_of_mem _ hp) e' he'
        unfold near at this ⊢; rw [← h1]; exact this
    obtain ⟨b2, rs, S2, r1, r2⟩ := run_spec hbs hv0 ops b1 S1 s3 (mul_lt_of hk (by omega)) (mul_lt_of hv (by omega))
      (fun q hq => hop q (List.mem_cons_of_mem _ hq)) hn1
      (fun p hp q hq => hnn p (List.mem_cons_of_mem _ hp) q (List.mem_cons_of_mem _ hq))
    refine ⟨b2, r :: rs, S2, ?_, .cons hs r2⟩
    rw [run, step_eq hbs h (by omega) op (hn _ List.mem_cons_self), s1, ok_bind]
    simp only
    rw [r1]; rfl

/-! ### Histories of the benchmark -/

theorem steps_append : ∀ (A : List Op) {B : List Op} {M M'' : IMap} {rs : List Res}, Steps M (A ++ B) M'' rs →
    ∃ M' r1 r2, rs = r1 ++ r2 ∧ Steps M A M' r1 ∧ Steps M' B M'' r2
  | [], _, M, _, rs, h => ⟨M, [], rs, rfl, .nil, h⟩
  | a :: A, B, M, M'', _, h => by
    rw [List.cons_append] at h
    cases h with
    | cons h1 h2 =>
      obtain ⟨M', r1, r2, rfl, s1, s2⟩ := steps_append A h2
      exact ⟨M', _ :: r1, r2, rfl, .cons h1 s1, s2⟩

/-- Inserting `g i` under the key `i` for every `i` of a list, memory being granted. -/
theorem steps_insert (f1 f2 : Int → Nat → Byte) (g : Int → List Byte) : ∀ (xs : List Int) {M M' : IMap} {rs : List Res},
    (∀ i ∈ xs, -2147483648 ≤ i ∧ i ≤ 2147483647) →
    Steps M (xs.map fun i => .insert (int4 i) (g i) (some (f1 i)) (some (f2 i))) M' rs →
    (∃ is : List Nat, is.length = xs.length ∧ rs = is.map fun i => .idx (some i)) ∧ ∀ j, M' j = if j ∈ xs then some (g j) else M j
  | [], M, _, _, _, h => by
    cases h
    exact ⟨⟨[], rfl, rfl⟩, fun j => by simp⟩
  | x :: xs, M, M', rs, hx, h => by
    rw [List.map_cons] at h
    cases h with
    | cons h1 h2 =>
      cases h1 with
      | @insert _ _ _ _ i =>
        obtain ⟨⟨is, l1, rfl⟩, hm⟩ := steps_insert f1 f2 g xs (fun i hi => hx i (by simp [hi])) h2
        refine ⟨⟨i :: is, by simp [l1], rfl⟩, fun j => ?_⟩
        rw [hm, upd, val_int4 (hx x (by simp))]
        by_cases h3 : j ∈ xs
        · rw [if_pos h3, if_pos (by simp [h3])]
        · rw [if_neg h3]
          by_cases h4 : j = x
          · rw [if_pos h4, if_pos (by simp [h4]), h4]
          · rw [if_neg h4, if_neg (by simp [h3, h4])]
      | insertFail _ h3 => rcases h3 with h3 | h3 <;> cases h3

theorem steps_contains : ∀ (xs : List Int) {M M' : IMap} {rs : List Res}, (∀ i ∈ xs, -2147483648 ≤ i ∧ i ≤ 2147483647) →
    Steps M (xs.map fun i => .contains (int4 i)) M' rs → M' = M ∧ rs = xs.map fun i => .bool (M i).isSome
  | [], M, _, _, _, h => by cases h; exact ⟨rfl, rfl⟩
  | x :: xs, M, M', rs, hx, h => by
    rw [List.map_cons] at h
    cases h with
    | cons h1 h2 =>
      cases h1
      obtain ⟨rfl, rfl⟩ := steps_contains xs (fun i hi => hx i (by simp [hi])) h2
      exact ⟨rfl, by rw [List.map_cons, val_int4 (hx x (by simp))]⟩

theorem steps_get : ∀ (xs : List Int) {M M' : IMap} {rs : List Res}, (∀ i ∈ xs, -2147483648 ≤ i ∧ i ≤ 2147483647) →
    Steps M (xs.map fun i => .get (int4 i)) M' rs → M' = M ∧ rs = xs.map fun i => .item (M i)
  | [], M, _, _, _, h => by cases h; exact ⟨rfl, rfl⟩
  | x :: xs, M, M', rs, hx, h => by
    rw [List.map_cons] at h
    cases h with
    | cons h1 h2 =>
      cases h1
      obtain ⟨rfl, rfl⟩ := steps_get xs (fun i hi => hx i (by simp [hi])) h2
      exact ⟨rfl, by rw [List.map_cons, val_int4 (hx x (by simp))]⟩

end Ulz.Subcmp

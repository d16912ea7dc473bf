import Verif.Proofs.Mapins
import Verif.Props.Mapdel
/-! C238: inserting entries into an hbmap inside `hbmap_foreach`. -/
set_option linter.unusedVariables false
namespace Ulz.Props
open Ulz.Bmap Ulz.Bmap.Spec
open Ulz.Sblist (mul_lt_of)

/-- C238, nothing is missed. Take any hbmap of `n` buckets reached by any history and any loop body that makes
    insertions, chosen by what the loop has read so far, at most `I` of them in all; memory may be refused to any
    of them. The loop ends without touching foreign memory after at most (entries + insertions) rounds. Afterwards
    the map is the one obtained by these insertions in this order. Every entry there was at the start was read and
    is still there. An entry of the resulting map that was not read was inserted while the loop was at an entry
    that comes later in its order. -/
theorem mapins_all (c : HCfg) (hc : HCfgOk c) (n : Nat) (h0 : 0 < n) (hn : n < 2^32) (ops : List Op) (I : Nat)
    (h32 : ops.length + I < 2^32) (hk : (2 * (ops.length + I) + 4) * c.ksz < 2^64)
    (hv : (2 * (ops.length + I) + 4) * c.vsz < 2^64) (hop : ∀ op ∈ ops, OpOk c.toCfg op) :
    ∃ h rs E, hrun c (hinit n) ops = .ok (h, rs) ∧ (∀ fuel, E.length < fuel → seen c h fuel = .ok E) ∧
      HSteps c.cmp empty ops (lookup c.cmp (kvs E)) rs ∧
      ∀ body, (∀ T, (insOf body T).length ≤ I) → (∀ T, ∀ i ∈ body T, OpOk c.toCfg (insOp i)) →
        ∀ fuel, E.length + I < fuel → ∃ h' T E' rs', insertLoop c body h fuel = .ok (h', T) ∧
          (∀ fuel, E.length + I < fuel → seen c h' fuel = .ok E') ∧
          HSteps c.cmp (lookup c.cmp (kvs E)) ((insOf body T).map insOp) (lookup c.cmp (kvs E')) rs' ∧
          (∀ k ∈ (kvs E).map Prod.fst, k ∈ (kvs E').map Prod.fst ∧ k ∈ T.map Prod.fst) ∧
          (∀ k ∈ (kvs E').map Prod.fst, k ∈ T.map Prod.fst ∨ Behind c n body T k) ∧
          T.length ≤ E.length + (insOf body T).length := by
  obtain ⟨h, rs, E, r1, r2, r3, r4⟩ := insert_loop_helper c hc n h0 hn ops I h32 hk hv hop
  refine ⟨h, rs, E, r1, r2, r3, ?_⟩
  intro body hI hok fuel hf
  obtain ⟨h', T, E', rs', w1, w2, w3, w4, w5, _, w7⟩ := r4 body hI hok fuel hf
  exact ⟨h', T, E', rs', w1, w2, w3, w4, w5, w7⟩

/-- C238, when nothing is read twice. If the body inserts no key that belongs into the bucket of the present
    entry and is smaller than its key, the loop reads the entries in the order of buckets and keys, none of them
    twice; every entry of the resulting map was read, unless it was inserted into an earlier bucket than the one
    the loop was at. -/
theorem mapins_once (c : HCfg) (hc : HCfgOk c) (n : Nat) (h0 : 0 < n) (hn : n < 2^32) (ops : List Op) (I : Nat)
    (h32 : ops.length + I < 2^32) (hk : (2 * (ops.length + I) + 4) * c.ksz < 2^64)
    (hv : (2 * (ops.length + I) + 4) * c.vsz < 2^64) (hop : ∀ op ∈ ops, OpOk c.toCfg op) :
    ∃ h rs E, hrun c (hinit n) ops = .ok (h, rs) ∧ (∀ fuel, E.length < fuel → seen c h fuel = .ok E) ∧
      ∀ body, (∀ T, (insOf body T).length ≤ I) → (∀ T, ∀ i ∈ body T, OpOk c.toCfg (insOp i)) →
        (∀ T x, ∀ i ∈ body (T ++ [x]), home c n i.key = home c n x.1 → 0 ≤ c.cmp i.key x.1) →
        ∀ fuel, E.length + I < fuel → ∃ h' T E', insertLoop c body h fuel = .ok (h', T) ∧
          (∀ fuel, E.length + I < fuel → seen c h' fuel = .ok E') ∧
          T.Pairwise (fun x y => Before c n x.1 y.1) ∧ (T.map Prod.fst).Nodup ∧
          (∀ k ∈ (kvs E).map Prod.fst, k ∈ T.map Prod.fst) ∧
          ∀ k ∈ (kvs E').map Prod.fst, k ∈ T.map Prod.fst ∨
            ∃ T1 x T2, T = T1 ++ x :: T2 ∧ (∃ i ∈ body (T1 ++ [x]), i.key = k) ∧ home c n k < home c n x.1 := by
  obtain ⟨h, rs, E, r1, r2, r3, r4⟩ := insert_loop_helper c hc n h0 hn ops I h32 hk hv hop
  refine ⟨h, rs, E, r1, r2, ?_⟩
  intro body hI hok hF fuel hf
  obtain ⟨h', T, E', rs', w1, w2, w3, w4, w5, w6, w7⟩ := r4 body hI hok fuel hf
  refine ⟨h', T, E', w1, w2, w6 hF, ?_, fun k hk => (w4 k hk).2, ?_⟩
  · rw [List.nodup_iff_pairwise_ne, List.pairwise_map]
    refine (w6 hF).imp ?_
    intro x y hxy e
    rw [e] at hxy
    have := hc.cmp.refl y.1
    rcases hxy with h | ⟨_, h⟩ <;> omega
  · intro k hk
    rcases w5 k hk with h | ⟨m, x, h1, ⟨i, h2, h3⟩, h4⟩
    · exact .inl h
    · obtain ⟨hm, e⟩ := List.getElem?_eq_some_iff.1 h1
      have et : T.take (m + 1) = T.take m ++ [x] := by rw [List.take_succ_eq_append_getElem hm, e]
      rw [et] at h2
      refine .inr ⟨T.take m, x, T.drop (m + 1), ?_, ⟨i, h2, h3⟩, ?_⟩
      · rw [← e, ← List.drop_eq_getElem_cons hm, List.take_append_drop]
      · rcases h4 with h4 | ⟨h4, h5⟩
        · exact h4
        · have := hF _ _ i h2 (by rw [h3]; exact h4)
          rw [h3] at this
          omega

/-- C238, when something is read twice. Let a loop over a map reached by any history be at any entry. If the body
    inserts one key that is not in the map, belongs into the same bucket and is smaller than the key of the entry,
    the next round of the loop reads the same entry again. -/
theorem mapins_again (c : HCfg) (hc : HCfgOk c) (n : Nat) (h0 : 0 < n) (hn : n < 2^32) (ops : List Op)
    (h32 : ops.length + 1 < 2^32) (hk : (2 * ops.length + 4) * c.ksz < 2^64)
    (hv : (2 * ops.length + 4) * c.vsz < 2^64) (hop : ∀ op ∈ ops, OpOk c.toCfg op) :
    ∃ h rs E, hrun c (hinit n) ops = .ok (h, rs) ∧ (∀ fuel, E.length < fuel → seen c h fuel = .ok E) ∧
      ∀ e ∈ E, ∀ k v a1 a2, k.length = c.ksz → v.length = c.vsz → home c n k = home c n e.2.1 → c.cmp k e.2.1 < 0 →
        lookup c.cmp (kvs E) k = none →
        ∃ h' it it', hinsert c (some a1) (some a2) h k v = .ok (h', it) ∧
          nextValid h' (h'.length + 1) e.1 = .ok it' ∧ iterValid h' it' = .ok true ∧ hgetkey c h' it' = .ok e.2.1 := by
  obtain ⟨h, rs, Ss, r1, r2, r3, r4, r5⟩ := hrun_view hc h0 hn (ops := ops) (by omega) hk hv hop
  refine ⟨h, rs, entriesFrom 0 Ss, r1, fun fuel hf => seen_spec r3 r4 (by omega) (mul_lt_of hk (by omega))
    (mul_lt_of hv (by omega)) hf, ?_⟩
  intro e he k v a1 a2 hkl hvl hh hlt hnone
  obtain ⟨b, hb, i, hi, rfl⟩ := mem_entriesFrom Ss 0 e he
  rw [lookup_entries hc r3] at hnone
  have hx := keyAt_get hb hi
  have hxh := keyAt_home r3 hx
  simp only [Nat.zero_add] at hh hlt ⊢
  exact insert_again_helper hc r3 r4 h32 hk hv hx a1 a2 k v hkl hvl (by rw [r5] at hxh ⊢; rw [hh]; exact hxh) hlt hnone

/-- Inserts, at the first entry only, the keys given. -/
def insDemo (ks : List Nat) : List KV → List Ins
  | [_] => ks.map fun k => ⟨[BitVec.ofNat 8 k, 0], [9], some fun _ => 0, some fun _ => 0⟩
  | _ => []

/-- It makes as many insertions as there are keys. -/
example (ks : List Nat) (T : List KV) : (insOf (insDemo ks) T).length ≤ ks.length := by
  match T with
  | [] => simp [insOf, insFrom]
  | x :: T =>
    have : ∀ (T2 T1 : List KV), T1 ≠ [] → insFrom (insDemo ks) T1 T2 = [] := by
      intro T2
      induction T2 with
      | nil => intro _ _; rfl
      | cons y T2 ih =>
        intro T1 h
        obtain ⟨z, T1, rfl⟩ := List.exists_cons_of_ne_nil h
        unfold insFrom
        rw [ih _ (by simp)]
        cases T1 <;> simp [insDemo]
    simp [insOf, insFrom, insDemo, this T [x] (by simp)]

/-- Buckets by remainder mod 3; entries 3 | - | 2 5 8. A loop that inserts 0 at its first entry (3) reads 3 again and
    never reads 0; one that inserts 6 and 11 reads both; one that inserts 0 and 1 reads 3 twice and 1 once. -/
example : (do
    let (h, _) ← hrun demoHCfg (hinit 3) loopDemo
    let (_, T1) ← insertLoop demoHCfg (insDemo [0]) h 9
    let (_, T2) ← insertLoop demoHCfg (insDemo [6, 11]) h 9
    let (_, T3) ← insertLoop demoHCfg (insDemo [0, 1]) h 9
    pure [T1.map fun e => (e.1.headD 0).toNat, T2.map fun e => (e.1.headD 0).toNat, T3.map fun e => (e.1.headD 0).toNat]) =
    (.ok [[3, 3, 2, 5, 8], [3, 6, 2, 5, 8, 11], [3, 3, 1, 2, 5, 8]] : C (List (List Nat))) := by
  decide +kernel

end Ulz.Props

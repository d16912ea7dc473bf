import Verif.Proofs.Multimap
import Verif.Props.Bmap
/-! C156, C157: blind insertions, and comparison functions that are no order. -/
set_option linter.unusedVariables false
namespace Ulz.Props
open Ulz.Multimap Ulz.Multimap.Spec
open Ulz.Bmap (Cfg BM Res)
open Ulz.Bmap.Spec (CfgOk)
open Ulz.Sblist (mul_lt_of)

/-- C156. Any sequence of calls that may also use `bmap_insert_nocheck` with keys already present, with any
    pattern of allocation failures, runs without touching foreign memory; the map then is a bag of entries:
    a blind insertion always adds an entry, a checked insertion overwrites one entry of its key if there is one,
    a lookup gives the value of some entry with the key if there is one, a deletion removes one entry; keys and
    values stay aligned and the keys sorted (not strictly). -/
theorem bmap_is_multimap (c : Cfg) (hc : CfgOk c) (ops : List Multimap.Op)
    (hk : (2 * ops.length + 4) * c.ksz < 2^64) (hv : (2 * ops.length + 4) * c.vsz < 2^64)
    (hop : ∀ op ∈ ops, Multimap.Spec.OpOk c op) :
    ∃ b rs S, Multimap.run c Bmap.init ops = .ok (b, rs) ∧ Multimap.Spec.Steps c.cmp [] ops S rs ∧ Lists c b S ∧
      S.Pairwise (fun x y => c.cmp x.1 y.1 ≤ 0) := by
  obtain ⟨b, rs, S, r1, r2, r3, r4, r5⟩ := run_multi hc ops Bmap.init [] ⟨Tglist.init_rep hc.ksz, Tglist.init_rep hc.vsz⟩
    List.Pairwise.nil (by simpa using hk) (by simpa using hv) hop
  simp only [List.length_nil, Nat.zero_add] at r5
  have hkc : b.keys.count = S.length := by rw [r3.keys.count]; simp
  refine ⟨b, rs, S, r1, r2, lists_of_al r3 (mul_lt_of hk (by omega)) (mul_lt_of hv (by omega)), ?_⟩
  exact List.pairwise_map.1 r4

/-- C156, continued: in such a map, repeated deletions of a key succeed exactly as often as there are entries
    with that key. -/
theorem bmap_multimap_deletions (cmp : List Byte → List Byte → Int) (k : List Byte) (m : Nat) (S S' : List Entry)
    (rs : List Res) (h : Multimap.Spec.Steps cmp S (List.replicate m (.base (.del k))) S' rs) :
    rs = (List.range m).map (fun i => Res.bool (decide (i < mult cmp S k))) ∧
      mult cmp S' k = mult cmp S k - m :=
  dels_spec k m S S' rs h

def multiDemo : List Multimap.Op :=
  [.nocheck [5, 0] [1] (some fun _ => 0) (some fun _ => 0), .nocheck [5, 1] [2] none none,
   .base (.insert [5, 2] [3] none none), .nocheck [3, 0] [4] none none, .base (.get [5, 9]), .base (.del [5, 0]),
   .base (.contains [5, 0]), .base (.del [5, 0]), .base (.del [5, 0])]

example : (∀ op ∈ multiDemo, Multimap.Spec.OpOk demoCfg op) ∧ (2 * multiDemo.length + 4) * demoCfg.ksz < 2^64 ∧
    CfgOk demoCfg :=
  ⟨by simp [multiDemo, Multimap.Spec.OpOk, Bmap.Spec.OpOk, demoCfg], by decide, demoCfg_ok⟩

/-- One of the two entries with key 5 is overwritten, and it takes two deletions to get rid of them. -/
example : (Multimap.run demoCfg Bmap.init multiDemo).map Prod.snd =
    .ok [.idx (some 0), .idx (some 0), .idx (some 0), .idx (some 0), .item (some [3]), .bool true, .bool true,
      .bool true, .bool false] := by decide +kernel

/-- C157. With a comparison function that is no order at all, and a `bsearch` that is only known to return an
    element of the array or NULL, every sequence of calls still runs without touching foreign memory and ends;
    keys and values stay aligned, and every call adds at most its own entry, gives one entry its own value or
    removes one entry: no other entry is lost or damaged. -/
theorem bmap_any_comparison (c : Cfg) (hks : 0 < c.ksz) (hvs : 0 < c.vsz) (hbs : InBounds c.bs)
    (ops : List Multimap.Op) (hk : (2 * ops.length + 4) * c.ksz < 2^64) (hv : (2 * ops.length + 4) * c.vsz < 2^64)
    (hop : ∀ op ∈ ops, Multimap.Spec.OpOk c op) :
    ∃ b rs S, Multimap.run c Bmap.init ops = .ok (b, rs) ∧ Touches [] ops S ∧ Lists c b S := by
  obtain ⟨b, rs, S, r1, r2, r3, r5⟩ := run_safe hbs ops Bmap.init [] ⟨Tglist.init_rep hks, Tglist.init_rep hvs⟩
    (by simpa using hk) (by simpa using hv) hop
  simp only [List.length_nil, Nat.zero_add] at r5
  have hkc : b.keys.count = S.length := by rw [r3.keys.count]; simp
  exact ⟨b, rs, S, r1, r2, lists_of_al r3 (mul_lt_of hk (by omega)) (mul_lt_of hv (by omega))⟩

theorem linSearch_inBounds : InBounds linSearch := by
  intro key xs cmp i h
  unfold linSearch at h
  exact (List.findIdx?_eq_some_iff_getElem.1 h).1

/-- A comparison function that is not antisymmetric: everything is greater than everything. -/
def badCfg : Cfg := ⟨2, 1, fun _ _ => 1, linSearch⟩

example : 0 < badCfg.ksz ∧ 0 < badCfg.vsz ∧ InBounds badCfg.bs ∧
    (∀ op ∈ multiDemo, Multimap.Spec.OpOk badCfg op) ∧ ¬ CfgOk badCfg :=
  ⟨by decide, by decide, linSearch_inBounds, by simp [multiDemo, Multimap.Spec.OpOk, Bmap.Spec.OpOk, badCfg],
    fun h => by have := h.cmp.refl []; simp [badCfg] at this⟩

example : (Multimap.run badCfg Bmap.init multiDemo).map Prod.snd =
    .ok [.idx (some 0), .idx (some 1), .idx (some 2), .idx (some 3), .item none, .bool false, .bool false,
      .bool false, .bool false] := by decide +kernel

end Ulz.Props

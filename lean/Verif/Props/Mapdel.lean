import Verif.Proofs.Mapdel
import Verif.Props.Bmap
/-! C148: deleting entries of an hbmap inside `hbmap_foreach`. -/
set_option linter.unusedVariables false
namespace Ulz.Props
open Ulz.Bmap Ulz.Bmap.Spec

/-- C148, deleting selected entries. Take any hbmap reached by any history, and any condition `p` on key
    and value. The loop `hbmap_foreach(map, i) while(hbmap_iter_index_valid(map, i) && p(key, value))
    hbmap_delete(map, i);` ends without touching foreign memory, and leaves exactly the entries that do not
    meet `p`, in the same order: a later loop sees those and a lookup finds those. -/
theorem hbmap_foreach_delete_if (c : HCfg) (hc : HCfgOk c) (n : Nat) (h0 : 0 < n) (hn : n < 2^32) (ops : List Op)
    (h32 : ops.length < 2^32) (hk : (2 * ops.length + 4) * c.ksz < 2^64) (hv : (2 * ops.length + 4) * c.vsz < 2^64)
    (hop : ∀ op ∈ ops, OpOk c.toCfg op) :
    ∃ h rs M E, hrun c (hinit n) ops = .ok (h, rs) ∧ HSteps c.cmp empty ops M rs ∧
      (∀ fuel, E.length < fuel → seen c h fuel = .ok E) ∧ lookup c.cmp (kvs E) = M ∧
      ∀ (p : List Byte → List Byte → Bool) fuel m, E.length < fuel → E.length < m →
        ∃ h' E', foreachBody (drainIf c p m) h fuel = .ok h' ∧
          (∀ fuel, E.length < fuel → seen c h' fuel = .ok E') ∧
          kvs E' = (kvs E).filter (fun e => !p e.1 e.2) ∧
          ∀ k, hget c h' k = .ok (lookup c.cmp (kvs E') k) := by
  obtain ⟨h, rs, M, E, Ss, r1, r2, r3, r4, r5, r6, r7, r8⟩ := hbmap_loop_helper c hc n h0 hn ops h32 hk hv hop
  refine ⟨h, rs, M, E, r1, r2, r3, r4, ?_⟩
  intro p fuel m hf hm
  obtain ⟨h', E', g1, g2, g3, g4⟩ := r8 (drainIf c p) _ _ (sweep_filter fun e => p e.1 e.2) (fun S => List.filter_sublist)
    (fun N m h1 h2 h3 h4 => bodyOk_drainIf hc h1 h2 h3 p h4) fuel m hf hm
  refine ⟨h', E', g1, g2, ?_, g4⟩
  rw [g3, r5, entriesFrom_kvs, filter_flatten']

/-- C148, the loop given in the header: `hbmap_foreach(map, i) { while(hbmap_iter_index_valid(map, i))
    hbmap_delete(map, i); }` ends without touching foreign memory and empties the map. -/
theorem hbmap_foreach_delete_all (c : HCfg) (hc : HCfgOk c) (n : Nat) (h0 : 0 < n) (hn : n < 2^32) (ops : List Op)
    (h32 : ops.length < 2^32) (hk : (2 * ops.length + 4) * c.ksz < 2^64) (hv : (2 * ops.length + 4) * c.vsz < 2^64)
    (hop : ∀ op ∈ ops, OpOk c.toCfg op) :
    ∃ h rs E, hrun c (hinit n) ops = .ok (h, rs) ∧ (∀ fuel, E.length < fuel → seen c h fuel = .ok E) ∧
      ∀ fuel m, E.length < fuel → E.length < m →
        ∃ h', foreachBody (drain c m) h fuel = .ok h' ∧ (∀ fuel, E.length < fuel → seen c h' fuel = .ok []) ∧
          ∀ k, hget c h' k = .ok none := by
  obtain ⟨h, rs, M, E, Ss, r1, r2, r3, r4, r5, r6, r7, r8⟩ := hbmap_loop_helper c hc n h0 hn ops h32 hk hv hop
  refine ⟨h, rs, E, r1, r3, ?_⟩
  intro fuel m hf hm
  obtain ⟨h', E', g1, g2, g3, g4⟩ := r8 (drain c) _ _ sweep_nil (fun S => List.nil_sublist _)
    (fun N m h1 h2 h3 h4 => bodyOk_drain hc h1 h2 h3 h4) fuel m hf hm
  have hnil : (Ss.map fun _ => ([] : List KV)).flatten = [] := by
    rw [List.flatten_eq_nil_iff]
    intro l hl
    obtain ⟨_, _, rfl⟩ := List.mem_map.1 hl
    rfl
  rw [hnil] at g3
  have hE : E' = [] := List.map_eq_nil_iff.1 g3
  subst hE
  exact ⟨h', g1, g2, g4⟩

/-- C148, the loop the header warns about: `hbmap_foreach(map, i) hbmap_delete(map, i);` also ends without
    touching foreign memory, but leaves exactly the entries at odd positions (second, fourth, ...) of their
    bucket. -/
theorem hbmap_foreach_delete_skips (c : HCfg) (hc : HCfgOk c) (n : Nat) (h0 : 0 < n) (hn : n < 2^32) (ops : List Op)
    (h32 : ops.length < 2^32) (hk : (2 * ops.length + 4) * c.ksz < 2^64) (hv : (2 * ops.length + 4) * c.vsz < 2^64)
    (hop : ∀ op ∈ ops, OpOk c.toCfg op) :
    ∃ h rs E, hrun c (hinit n) ops = .ok (h, rs) ∧ (∀ fuel, E.length < fuel → seen c h fuel = .ok E) ∧
      ∀ fuel, E.length < fuel →
        ∃ h' E', foreachBody (hdelete c) h fuel = .ok h' ∧ (∀ fuel, E.length < fuel → seen c h' fuel = .ok E') ∧
          kvs E' = kvs (E.filter oddPos) ∧ ∀ k, hget c h' k = .ok (lookup c.cmp (kvs E') k) := by
  obtain ⟨h, rs, M, E, Ss, r1, r2, r3, r4, r5, r6, r7, r8⟩ := hbmap_loop_helper c hc n h0 hn ops h32 hk hv hop
  refine ⟨h, rs, E, r1, r3, ?_⟩
  intro fuel hf
  obtain ⟨h', E', g1, g2, g3, g4⟩ := r8 (fun _ => hdelete c) _ _ sweep_tail
    (fun S => alt_sublist _ S) (fun N m h1 h2 h3 h4 => bodyOk_delete hc h1 h2 h3) fuel (E.length + 1) hf (by omega)
  refine ⟨h', E', g1, g2, ?_, g4⟩
  rw [g3, r5]
  exact (entriesFrom_odd h32 Ss 0 r6 (by omega)).symm

/-- Three entries in bucket 2 of 3 (keys 2, 5, 8) and one in bucket 0 (key 3). -/
def loopDemo : List Op :=
  [.insert [5, 0] [1] (some fun _ => 0) (some fun _ => 0), .insert [3, 0] [2] (some fun _ => 0) (some fun _ => 0),
   .insert [8, 1] [3] none none, .insert [2, 0] [4] none none]

example : (∀ op ∈ loopDemo, OpOk demoHCfg.toCfg op) := by simp [loopDemo, OpOk, demoHCfg, demoCfg]

/-- All four are deleted by the header's loop; without the inner loop the one with key 5 survives; deleting
    the values above 1 leaves the same one. -/
example : (do
    let (h, _) ← hrun demoHCfg (hinit 3) loopDemo
    let E ← seen demoHCfg h 9
    let h1 ← foreachBody (drain demoHCfg 9) h 9
    let E1 ← seen demoHCfg h1 9
    let h2 ← foreachBody (hdelete demoHCfg) h 9
    let E2 ← seen demoHCfg h2 9
    let h3 ← foreachBody (drainIf demoHCfg (fun _ v => 1 < (v.headD 0).toNat) 9) h 9
    let E3 ← seen demoHCfg h3 9
    pure [kvs E, kvs E1, kvs E2, kvs E3]) =
    (.ok [[([3, 0], [2]), ([2, 0], [4]), ([5, 0], [1]), ([8, 1], [3])], [], [([5, 0], [1])], [([5, 0], [1])]] : C (List (List KV))) := by
  decide +kernel

end Ulz.Props

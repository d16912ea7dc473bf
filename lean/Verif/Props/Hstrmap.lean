import Verif.Proofs.Hstrmap
import Verif.Props.Strmap
/-! C188: hash maps whose keys are pointers to strings -/
namespace Ulz.Props
open Ulz.Hstrmap Ulz.Hstrmap.Spec
open Ulz.Strmap (Mem)
open Ulz.Strmap.Spec (ptr)
open Ulz.Bmap (Op HRes)
open Ulz.Bmap.Spec (BsearchOk OpOk)
open Ulz.Tglist (leVal)

/-- C188. An `hbmap(char*, V, N)` whose comparison and hash functions follow the pointers, with any number of buckets and any hash
    function of the string: under any sequence of insertions, lookups and deletions with any allocation failures, the memory changing
    in any way between the calls except for the strings of the keys that are in the map, it touches no foreign memory and behaves as a
    map from strings. -/
theorem hstrmap_is_map (bs : List Byte → List (List Byte) → (List Byte → List Byte → Int) → Option Nat) (hbs : BsearchOk bs)
    (vsz : Nat) (hv0 : 0 < vsz) (hf : List Byte → BitVec 32) (N : Nat) (hN0 : 0 < N) (hN : N < 2^32) (μ : Mem) (ops : List (Mem × Op))
    (hn : ops.length < 2^32) (hv : (2 * ops.length + 4) * vsz < 2^64) (hop : ∀ q ∈ ops, OpOk (Strmap.cfg bs vsz q.1) q.2)
    (hst : Stable (hcfg bs vsz hf) μ (Bmap.hinit N) ops) :
    ∃ h rs M, Hstrmap.run (hcfg bs vsz hf) (Bmap.hinit N) ops = .ok (h, rs) ∧ Hstrmap.Spec.Steps Strmap.Spec.empty ops M rs := by
  obtain ⟨h, rs, Ss, μ', h1, h2, _⟩ := Hstrmap.run_spec (hf := hf) hbs hv0 ops μ (Bmap.hinit N) (List.replicate N []) 0
    (Bmap.hinit_view (hcfg_ok hbs hv0 μ) hN0 hN) (fun S hS => by simp [(List.mem_replicate.1 hS).2]) (by omega) (by simpa using hv) hop hst
  refine ⟨h, rs, hsmap hf μ' Ss, h1, ?_⟩
  have : hsmap hf μ (List.replicate N []) = Strmap.Spec.empty := by
    funext s
    unfold hsmap
    rw [Bmap.getD_lt (by rw [List.length_replicate]; exact Nat.mod_lt _ hN0), List.getElem_replicate]
    rfl
  rw [← this]; exact h2

/-- C188. A string that changes while it is a key: the entry is never found under its old string, and under its new one exactly if the
    hash function happens to send both to the same bucket. -/
theorem hstrmap_key_changed (bs : List Byte → List (List Byte) → (List Byte → List Byte → Int) → Option Nat) (hbs : BsearchOk bs)
    (vsz : Nat) (hv0 : 0 < vsz) (hvs : vsz < 2^59) (hf : List Byte → BitVec 32) (N : Nat) (hN0 : 0 < N) (hN : N < 2^32)
    (k q v : List Byte) (hk : k.length = 8) (hv : v.length = vsz) (f1 f2 : Nat → Byte) (μ μ' : Mem)
    (hq : μ' (leVal q) = μ (leVal k)) (hne : μ' (leVal k) ≠ μ (leVal k)) :
    ∃ h, Hstrmap.run (hcfg bs vsz hf) (Bmap.hinit N) [(μ, .insert k v (some f1) (some f2)), (μ', .get q), (μ', .get k)] =
      .ok (h, [.iter false, .item none,
        .item (if (hf (μ' (leVal k))).toNat % N = (hf (μ (leVal k))).toNat % N then some v else none)]) := by
  obtain ⟨h, it, e1, e2, s⟩ := same_insert (hf := hf) hbs hv0 hvs hN0 hN (same_init hbs hv0 N k) μ f1 f2 v hk hv
  refine ⟨h, ?_⟩
  rw [Hstrmap.run, Bmap.hstep, e1]
  simp only [ok_bindE, pure_eq_ok]
  rw [Hstrmap.run, Bmap.hstep, same_get hbs hv0 hvs hN0 hN s, if_neg (by rw [hq]; exact fun e => hne e.symm)]
  simp only [ok_bindE, pure_eq_ok]
  rw [Hstrmap.run, Bmap.hstep, same_get hbs hv0 hvs hN0 hN s, if_pos rfl]
  simp only [ok_bindE, pure_eq_ok, Hstrmap.run, e2]
  rfl

/-- C188. A loop that inserts strings read into one buffer, without copying them. Every insertion succeeds; afterwards a lookup finds
    something only if it asks for what the buffer holds, and then the value last inserted for a string of the same bucket, not
    necessarily that string. The map ends up with as many entries as buckets were met. -/
theorem hstrmap_one_buffer (bs : List Byte → List (List Byte) → (List Byte → List Byte → Int) → Option Nat) (hbs : BsearchOk bs)
    (vsz : Nat) (hv0 : 0 < vsz) (hvs : vsz < 2^59) (hf : List Byte → BitVec 32) (N : Nat) (hN0 : 0 < N) (hN : N < 2^32)
    (k : List Byte) (hk : k.length = 8) (xs : List (Mem × List Byte)) (hx : ∀ y ∈ xs, y.2.length = vsz) (f1 f2 : Nat → Byte) :
    ∃ h, Hstrmap.run (hcfg bs vsz hf) (Bmap.hinit N) (xs.map fun y => (y.1, .insert k y.2 (some f1) (some f2))) =
        .ok (h, xs.map fun _ => .iter false) ∧ h.length = N ∧
      (∀ i (hi : i < h.length), h[i].keys.count = if ∃ y ∈ xs, home hf N (y.1 (leVal k)) = i then 1 else 0) ∧
      ∀ μ q, Bmap.hget (hcfg bs vsz hf μ) h q = .ok (if μ (leVal q) = μ (leVal k) then
        ((xs.filter fun y => home hf N (y.1 (leVal k)) = home hf N (μ (leVal k))).getLast?).map Prod.snd else none) := by
  obtain ⟨h, e, s⟩ := same_run (hf := hf) hbs hv0 hvs hN0 hN hk f1 f2 xs _ _ (same_init hbs hv0 N k) hx
  refine ⟨h, e, s.len, fun i hi => ?_, fun μ q => ?_⟩
  · have hV := s.view (fun _ => []) i hi
    rw [hV.keys.count, lastIn_eq]
    by_cases hh : ∃ y ∈ xs, home hf N (y.1 (leVal k)) = i
    · rw [if_pos hh]
      obtain ⟨y, hy, hh⟩ := hh
      have hm : y ∈ xs.filter fun x => home hf N (x.1 (leVal k)) = i := List.mem_filter.2 ⟨hy, by simpa using hh⟩
      rw [List.getLast?_eq_some_getLast (List.ne_nil_of_mem hm)]
      rfl
    · rw [if_neg hh]
      have : (xs.filter fun x => home hf N (x.1 (leVal k)) = i) = [] := by
        rw [List.filter_eq_nil_iff]
        intro y hy h1
        exact hh ⟨y, hy, by simpa using h1⟩
      rw [this]; rfl
  · rw [same_get hbs hv0 hvs hN0 hN s, lastIn_eq]
    simp only [Option.or_none]

/-- A hash function for the examples: the first byte. -/
def firstByte (s : List Byte) : BitVec 32 := (s.headD 0).setWidth 32

example : Stable (hcfg linSearch 1 firstByte) (fun _ => []) (Bmap.hinit 3) strDemo ∧
    (∀ q ∈ strDemo, OpOk (Strmap.cfg linSearch 1 q.1) q.2) ∧ BsearchOk linSearch :=
  ⟨stableB_ok _ _ _ _ (by decide +kernel), by
    intro q hq
    simp only [strDemo, List.mem_cons, List.not_mem_nil, or_false] at hq
    rcases hq with rfl | rfl | rfl | rfl | rfl | rfl | rfl | rfl | rfl <;> simp [OpOk, Strmap.cfg, ptr, Tglist.leBytes_length], linSearch_ok⟩

/-- "two" lies in a bucket of its own, so its insertion needs memory and fails. -/
example : (match Hstrmap.run (hcfg linSearch 1 firstByte) (Bmap.hinit 3) strDemo with | .ok (_, rs) => some rs | .error _ => none) =
    some [.iter false, .iter true, .item none, .item (some [1]), .bool false, .iter false, .item (some [7]), .bool false,
      .bool false] := by
  decide +kernel

/-- The same buffer for "b", "a" and "e" with three buckets: "b" and "e" meet in one. Asking for "b" while the buffer holds "b" yields
    what was inserted for "e". -/
example : ∃ h, (∃ rs, Hstrmap.run (hcfg linSearch 1 firstByte) (Bmap.hinit 3)
      [(fun _ => bytes! "b", .insert (ptr 1000) [1] (some fun _ => 0) (some fun _ => 0)),
       (fun _ => bytes! "a", .insert (ptr 1000) [2] (some fun _ => 0) (some fun _ => 0)),
       (fun _ => bytes! "e", .insert (ptr 1000) [3] (some fun _ => 0) (some fun _ => 0))] = .ok (h, rs)) ∧
    Bmap.hget (hcfg linSearch 1 firstByte fun _ => bytes! "b") h (ptr 8) = .ok (some [3]) ∧
    Bmap.hget (hcfg linSearch 1 firstByte fun _ => bytes! "a") h (ptr 8) = .ok (some [2]) ∧
    Bmap.hget (hcfg linSearch 1 firstByte fun _ => bytes! "c") h (ptr 8) = .ok none := by
  obtain ⟨h, h1, _, _, h3⟩ := hstrmap_one_buffer linSearch linSearch_ok 1 (by decide) (by decide) firstByte 3 (by decide) (by decide)
    (ptr 1000) (Tglist.leBytes_length _ _) [(fun _ => bytes! "b", [1]), (fun _ => bytes! "a", [2]), (fun _ => bytes! "e", [3])] (by simp)
    (fun _ => 0) (fun _ => 0)
  exact ⟨h, ⟨_, h1⟩, by rw [h3]; decide +kernel, by rw [h3]; decide +kernel, by rw [h3]; decide +kernel⟩

example : ∃ h, Hstrmap.run (hcfg linSearch 1 firstByte) (Bmap.hinit 3) [(fun _ => bytes! "x", .insert (ptr 8) [1] (some fun _ => 0) (some fun _ => 0)),
      (fun a => if a = 8 then bytes! "y" else bytes! "x", .get (ptr 16)), (fun a => if a = 8 then bytes! "y" else bytes! "x", .get (ptr 8))] =
    .ok (h, [.iter false, .item none, .item none]) :=
  hstrmap_key_changed linSearch linSearch_ok 1 (by decide) (by decide) firstByte 3 (by decide) (by decide) (ptr 8) (ptr 16) [1]
    (Tglist.leBytes_length _ _) rfl _ _ _ _ (by decide) (by decide)

end Ulz.Props

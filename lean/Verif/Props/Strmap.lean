import Verif.Proofs.Strmap
import Verif.Props.Bmap
/-! # Property theorem C183: maps whose keys are pointers to strings -/
namespace Ulz.Props
open Ulz.Strmap Ulz.Strmap.Spec
open Ulz.Bmap (Op Res)
open Ulz.Bmap.Spec (BsearchOk OpOk)
open Ulz.Tglist (leVal)

/-- C183. A `bmap(char*, V)` whose comparison function follows the pointers: under any sequence of insertions, lookups and deletions
    with any allocation failures, the memory changing in any way between the calls except for the strings of the keys that are in
    the map, it touches no foreign memory and behaves as a map from strings. In particular the buffer a key is looked up, deleted
    or overwritten with may be reused. -/
theorem strmap_is_map (bs : List Byte → List (List Byte) → (List Byte → List Byte → Int) → Option Nat) (hbs : BsearchOk bs)
    (vsz : Nat) (hv0 : 0 < vsz) (μ : Mem) (ops : List (Mem × Op)) (hn : (2 * ops.length + 4) * 8 < 2^64)
    (hv : (2 * ops.length + 4) * vsz < 2^64) (hop : ∀ q ∈ ops, OpOk (cfg bs vsz q.1) q.2) (hst : Stable (cfg bs vsz) μ Bmap.init ops) :
    ∃ b rs M, Strmap.run (cfg bs vsz) Bmap.init ops = .ok (b, rs) ∧ Steps Strmap.Spec.empty ops M rs := by
  obtain ⟨b, rs, S, μ', h1, h2, _⟩ := run_spec hbs hv0 ops μ Bmap.init [] (Bmap.init_view (cfg_ok hbs hv0 μ)) (by simpa using hn)
    (by simpa using hv) hop hst
  exact ⟨b, rs, _, h1, h2⟩

/-- C183. A string that changes while it is a key: the entry is lost under its old string and found under the new one. -/
theorem strmap_key_changed (bs : List Byte → List (List Byte) → (List Byte → List Byte → Int) → Option Nat) (hbs : BsearchOk bs)
    (vsz : Nat) (hv0 : 0 < vsz) (hvs : vsz < 2^59) (k q v : List Byte) (hk : k.length = 8) (hv : v.length = vsz) (f1 f2 : Nat → Byte) (μ μ' : Mem)
    (hq : μ' (leVal q) = μ (leVal k)) (hne : μ' (leVal k) ≠ μ (leVal k)) :
    ∃ b i, Strmap.run (cfg bs vsz) Bmap.init [(μ, .insert k v (some f1) (some f2)), (μ', .get q), (μ', .get k)] =
      .ok (b, [.idx (some i), .item none, .item (some v)]) := by
  obtain ⟨b, i, e, h⟩ := first_insert hbs hv0 hvs μ k v hk hv f1 f2
  have h' := view_one h μ'
  have hkc : b.keys.count = 1 := by rw [h.keys.count]; rfl
  have hg := Bmap.get_spec (cfg_ok hbs hv0 μ') h' (by rw [hkc]; show 1 * 8 < _; decide) (by rw [hkc]; show 1 * vsz < _; omega)
  refine ⟨b, i, ?_⟩
  have e1 : Bmap.get (cfg bs vsz μ') b q = .ok none := by
    rw [hg q, smap_lookup, smap]
    rw [List.find?_cons_of_neg (by simp only [decide_eq_true_eq]; rw [hq]; exact fun h => hne h.symm)]; rfl
  have e2 : Bmap.get (cfg bs vsz μ') b k = .ok (some v) := by
    rw [hg k, smap_lookup, smap, List.find?_cons_of_pos (by simp)]; rfl
  simp only [Strmap.run, Bmap.step, e, e1, e2, ok_bind, pure_eq_ok]

/-- C183. The classic mistake: a loop that inserts strings read into one buffer, without copying them. Whatever the strings, the
    map ends up with one entry, whose key is whatever the buffer holds and whose value is the last one. -/
theorem strmap_one_buffer (bs : List Byte → List (List Byte) → (List Byte → List Byte → Int) → Option Nat) (hbs : BsearchOk bs)
    (vsz : Nat) (hv0 : 0 < vsz) (hvs : vsz < 2^59) (k : List Byte) (hk : k.length = 8) (x : Mem × List Byte) (xs : List (Mem × List Byte))
    (hx : ∀ y ∈ x :: xs, y.2.length = vsz) (f1 f2 : Nat → Byte) (a1 a2 : Nat → Alloc) :
    ∃ b rs, Strmap.run (cfg bs vsz) Bmap.init ((x.1, .insert k x.2 (some f1) (some f2)) ::
        xs.mapIdx fun i y => (y.1, .insert k y.2 (a1 i) (a2 i))) = .ok (b, rs) ∧ b.keys.count = 1 ∧ b.values.count = 1 ∧
      ∀ μ q, Bmap.get (cfg bs vsz μ) b q = .ok (if μ (leVal q) = μ (leVal k) then some (((x :: xs).getLast (by simp)).2) else none) := by
  obtain ⟨b0, i, e, h⟩ := first_insert hbs hv0 hvs x.1 k x.2 hk (hx x (by simp)) f1 f2
  obtain ⟨b, rs, e1, h1⟩ := same_ptr hbs hv0 hvs k xs a1 a2 0 x.1 b0 x.2 h (fun y hy => hx y (by simp [hy]))
  have hkc : b.keys.count = 1 := by rw [(h1 x.1).keys.count]; rfl
  refine ⟨b, .idx (some i) :: rs, ?_, hkc, by rw [(h1 x.1).values.count]; rfl, fun μ q => ?_⟩
  · rw [Strmap.run, Bmap.step, e]
    simp only [ok_bind, pure_eq_ok]
    simp only [Nat.zero_add] at e1
    rw [e1]; rfl
  · rw [Bmap.get_spec (cfg_ok hbs hv0 μ) (h1 μ) (by rw [hkc]; show 1 * 8 < _; decide) (by rw [hkc]; show 1 * vsz < _; omega),
      smap_lookup, smap]
    have hl : (xs.getLast?.map Prod.snd).getD x.2 = ((x :: xs).getLast (by simp)).2 := by
      cases xs with
      | nil => rfl
      | cons y ys => rw [List.getLast?_eq_some_getLast (by simp)]; rfl
    rw [hl]
    by_cases hq : μ (leVal q) = μ (leVal k)
    · rw [List.find?_cons_of_pos (by simpa using hq), if_pos hq]; rfl
    · rw [List.find?_cons_of_neg (by simpa using hq), if_neg hq]; rfl

/-- The keys at 1000 and 2000, lookups through a buffer at 3000 that changes. -/
def strDemo : List (Mem × Op) :=
  let mem (s : List Byte) : Mem := fun a => if a = 1000 then bytes! "one" else if a = 2000 then bytes! "two" else if a = 3000 then s else []
  [(mem [], .insert (ptr 1000) [1] (some fun _ => 0) (some fun _ => 0)), (mem [], .insert (ptr 2000) [2] none none),
   (mem (bytes! "two"), .get (ptr 3000)), (mem (bytes! "one"), .get (ptr 3000)), (mem (bytes! "three"), .contains (ptr 3000)),
   (mem (bytes! "one"), .insert (ptr 3000) [7] none none), (mem (bytes! "zzz"), .get (ptr 1000)), (mem (bytes! "two"), .del (ptr 3000)),
   (mem [], .contains (ptr 2000))]

example : Stable (cfg linSearch 1) (fun _ => []) Bmap.init strDemo ∧ (∀ q ∈ strDemo, OpOk (cfg linSearch 1 q.1) q.2) ∧ BsearchOk linSearch :=
  ⟨stableB_ok _ _ _ _ (by decide +kernel), by
    intro q hq
    simp only [strDemo, List.mem_cons, List.not_mem_nil, or_false] at hq
    rcases hq with rfl | rfl | rfl | rfl | rfl | rfl | rfl | rfl | rfl <;> simp [OpOk, cfg, ptr, Tglist.leBytes_length], linSearch_ok⟩

example : (match Strmap.run (cfg linSearch 1) Bmap.init strDemo with | .ok (_, rs) => some rs | .error _ => none) =
    some [.idx (some 0), .idx (some 1), .item (some [2]), .item (some [1]), .bool false, .idx (some 0), .item (some [7]), .bool true,
      .bool false] := by
  decide +kernel

/-- The same buffer for "b", "a" and "c": one entry is left. -/
example : ∃ b rs, Strmap.run (cfg linSearch 1) Bmap.init
      [(fun _ => bytes! "b", .insert (ptr 1000) [1] (some fun _ => 0) (some fun _ => 0)), (fun _ => bytes! "a", .insert (ptr 1000) [2] none none),
       (fun _ => bytes! "c", .insert (ptr 1000) [3] none none)] = .ok (b, rs) ∧ b.keys.count = 1 := by
  obtain ⟨b, rs, h1, h2, _⟩ := strmap_one_buffer linSearch linSearch_ok 1 (by decide) (by decide) (ptr 1000) (Tglist.leBytes_length _ _)
    (fun _ => bytes! "b", [1]) [(fun _ => bytes! "a", [2]), (fun _ => bytes! "c", [3])] (by simp) (fun _ => 0) (fun _ => 0) (fun _ => none) (fun _ => none)
  exact ⟨b, rs, h1, h2⟩

example : ∃ b i, Strmap.run (cfg linSearch 1) Bmap.init [(fun _ => bytes! "x", .insert (ptr 8) [1] (some fun _ => 0) (some fun _ => 0)),
      (fun a => if a = 8 then bytes! "y" else bytes! "x", .get (ptr 16)), (fun a => if a = 8 then bytes! "y" else bytes! "x", .get (ptr 8))] =
    .ok (b, [.idx (some i), .item none, .item (some [1])]) :=
  strmap_key_changed linSearch linSearch_ok 1 (by decide) (by decide) (ptr 8) (ptr 16) [1] (Tglist.leBytes_length _ _) rfl _ _ _ _
    (by decide) (by decide)

end Ulz.Props

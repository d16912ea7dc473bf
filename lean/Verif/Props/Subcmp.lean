import Verif.Proofs.Subcmp
import Verif.Proofs.Frame
/-! C189: comparison of integers by subtraction -/
namespace Ulz.Props
open Ulz.Subcmp Ulz.Subcmp.Spec
open Ulz.Bmap (Op Res)
open Ulz.Tglist.Spec (Rep)

/-- C189. `return *a - *b` is defined exactly if the difference is an `int`, and then it is that difference. -/
theorem intcmp_exact (a b : List Byte) :
    (∀ d, intcmp a b = .ok d ↔ d = val a - val b ∧ -2147483648 ≤ d ∧ d ≤ 2147483647) ∧
    (intcmp a b = .error .overflow ↔ val a - val b < -2147483648 ∨ 2147483647 < val a - val b) := by
  by_cases h : near a b
  · rw [intcmp_near h]
    refine ⟨fun d => ⟨fun e => ?_, fun ⟨e, _⟩ => (by rw [e]; rfl)⟩, ⟨fun e => (by cases e), fun e => ?_⟩⟩
    · cases e; exact ⟨rfl, h⟩
    · unfold near at h; omega
  · rw [intcmp_far h]
    refine ⟨fun d => ⟨fun e => (by cases e), fun ⟨e, h1⟩ => (by subst e; exact absurd h1 h)⟩, ⟨fun _ => ?_, fun _ => rfl⟩⟩
    unfold near at h; omega

/-- C189. A `bmap(int, V)` with this comparison: if no two keys that are ever passed differ by more than 2^31-1, then under any sequence of
    insertions, lookups and deletions with any allocation failures nothing undefined happens, the comparisons included, and the map
    behaves as a map from integers. -/
theorem intmap_is_map (bs : List Byte → List (List Byte) → (List Byte → List Byte → C Int) → C (Option Nat)) (hbs : BsearchOk bs)
    (vsz : Nat) (hv0 : 0 < vsz) (ops : List Op) (hn : (2 * ops.length + 4) * 4 < 2^64) (hv : (2 * ops.length + 4) * vsz < 2^64)
    (hop : ∀ k v a1 a2, Op.insert k v a1 a2 ∈ ops → k.length = 4 ∧ v.length = vsz)
    (hnear : ∀ p ∈ ops, ∀ q ∈ ops, val (key p) - val (key q) ≤ 2147483647) :
    ∃ b rs M, Subcmp.run ⟨4, vsz, intcmp, bs⟩ Bmap.init ops = .ok (b, rs) ∧ Subcmp.Spec.Steps Subcmp.Spec.empty ops M rs := by
  obtain ⟨b, rs, S, h1, h2⟩ := Subcmp.run_spec hbs hv0 ops Bmap.init [] (Bmap.init_view (cfgV_ok hbs hv0)) (by simpa using hn)
    (by simpa using hv) (fun op h => by cases op with
      | insert k v a1 a2 => exact hop k v a1 a2 h
      | _ => trivial) (fun _ _ e he => by cases he)
    (fun p hp q hq => ⟨by have := hnear q hq p hp; omega, hnear p hp q hq⟩)
  exact ⟨b, rs, _, h1, h2⟩

/-- C189. tglist_insert_sorted of an `int` into a list sorted by value, all within reach: it stays sorted, unless memory is refused, when
    it is unchanged. -/
theorem intlist_insert_sorted {l : Tglist.TG} {xs : List (List Byte)} (h : Rep 4 l xs) (hb : (2 * l.count + 4) * 4 < 2^64)
    (hs : xs.Pairwise fun a b => val a ≤ val b) (a : Alloc) (o : List Byte) (ho : o.length = 4)
    (hnear : ∀ x ∈ xs, -2147483648 ≤ val o - val x ∧ val o - val x ≤ 2147483647) :
    (∃ l' p, Subcmp.insert_sorted 4 a l o intcmp = .ok (l', some p) ∧ p ≤ xs.length ∧ Rep 4 l' (xs.take p ++ o :: xs.drop p) ∧
      (xs.take p ++ o :: xs.drop p).Pairwise fun a b => val a ≤ val b) ∨
    (a = none ∧ Subcmp.insert_sorted 4 a l o intcmp = .ok (l, none)) := by
  have e : Subcmp.insert_sorted 4 a l o intcmp = Tglist.insert_sorted 4 a l o icmp := by
    apply insert_sorted_eq
    intro i p hi hg
    rw [Tglist.get_spec h (by omega) (i := i) (by rw [← h.count]; exact hi)] at hg
    cases hg
    exact intcmp_near (hnear _ (List.getElem_mem _))
  have hsort : ∀ ys : List (List Byte), Sblist.Spec.Sorted icmp ys ↔ ys.Pairwise fun a b => val a ≤ val b := by
    intro ys
    unfold Sblist.Spec.Sorted
    constructor <;> refine List.Pairwise.imp ?_ <;> intro x y hxy <;> simp only [icmp] at * <;> omega
  rw [e]
  rcases Tglist.insert_sorted_spec h hb a o ho icmp with ⟨l', p, r1, r2, r3, r4⟩ | ⟨r1, _, r2⟩
  · exact .inl ⟨l', p, r1, r2, r3, (hsort _).1 (r4 icmp_ok ((hsort _).2 hs))⟩
  · exact .inr ⟨r1, r2⟩

/-- C189. If the element in the middle of the list is out of reach, the insertion is undefined. -/
theorem intlist_insert_overflow {l : Tglist.TG} {xs : List (List Byte)} (h : Rep 4 l xs) (hb : (2 * l.count + 4) * 4 < 2^64) (a : Alloc)
    (o : List Byte) (hm : (xs.length - 1) / 2 < xs.length)
    (hfar : val o - val xs[(xs.length - 1) / 2] < -2147483648 ∨ 2147483647 < val o - val xs[(xs.length - 1) / 2]) :
    Subcmp.insert_sorted 4 a l o intcmp = .error .overflow := by
  have hc := h.count
  have e : Subcmp.sortedIndex 4 l o intcmp = .error .overflow := by
    unfold Subcmp.sortedIndex
    rw [if_neg (by omega), Subcmp.sortedPos]
    simp only
    rw [Tglist.get_spec h (by omega) (i := 0 + (l.count - 1 - 0) / 2) (by omega), ok_bindE]
    have : xs[0 + (l.count - 1 - 0) / 2]'(by omega) = xs[(xs.length - 1) / 2] := by
      congr 1
      omega
    rw [this, intcmp_far (by unfold near; omega)]
    rfl
  unfold Subcmp.insert_sorted
  rw [e]; rfl

/-- C189. Compiled with wrapping arithmetic the comparison is always defined, but a second element goes to the wrong side of the first
    exactly if their difference is no `int`. -/
theorem intcmp_wrap_side {l : Tglist.TG} {x : List Byte} (h : Rep 4 l [x]) (f : Nat → Byte) (y : List Byte) (hy : y.length = 4)
    (hne : val y ≠ val x) :
    ∃ l' p xs, Tglist.insert_sorted 4 (some f) l y intcmpW = .ok (l', some p) ∧ Rep 4 l' xs ∧ (xs = [x, y] ∨ xs = [y, x]) ∧
      ((xs.Pairwise fun a b => val a ≤ val b) ↔ -2147483648 ≤ val y - val x ∧ val y - val x ≤ 2147483647) := by
  have hc : l.count = 1 := h.count
  have hrx := val_range x
  have hry := val_range y
  obtain ⟨p, hp, hpv⟩ : ∃ p, Tglist.sortedIndex 4 l y intcmpW = .ok p ∧ p = if intcmpW y x > 0 then 1 else 0 := by
    refine ⟨_, ?_, rfl⟩
    unfold Tglist.sortedIndex
    rw [if_neg (by omega), hc, Tglist.sortedPos]
    simp only
    rw [Tglist.get_spec h (by omega) (i := 0 + (1 - 1 - 0) / 2) (by simp), ok_bindE]
    rfl
  rcases Tglist.insert_sorted_spec h (by omega) (some f) y hy intcmpW with ⟨l', q, r1, r2, r3, _⟩ | ⟨r1, _⟩
  · have hq : q = p := by
      unfold Tglist.insert_sorted at r1
      rw [hp, ok_bindE] at r1
      obtain ⟨z, _, hz⟩ := Frame.bind_ok.1 r1
      obtain ⟨l2, ok⟩ := z
      simp only at hz
      split at hz
      · cases hz; rfl
      · cases hz
    subst hq
    refine ⟨l', q, _, r1, r3, ?_, ?_⟩
    · rw [hpv]; split
      · left; rfl
      · right; rfl
    · have hw : intcmpW y x = (val y - val x).bmod (2^32) := rfl
      rw [hpv]
      by_cases hd : -2147483648 ≤ val y - val x ∧ val y - val x ≤ 2147483647
      · have hb : intcmpW y x = val y - val x := by rw [hw]; apply Int.bmod_eq_of_le <;> omega
        rw [hb]
        split
        · simp; omega
        · simp; omega
      · by_cases hlo : val y - val x < -2147483648
        · have hb : intcmpW y x = val y - val x + 4294967296 := by
            rw [hw, ← Int.add_bmod_right]; apply Int.bmod_eq_of_le <;> omega
          rw [hb, if_pos (by omega)]
          simp; omega
        · have hb : intcmpW y x = val y - val x - 4294967296 := by
            rw [hw, ← Int.sub_bmod_right]; apply Int.bmod_eq_of_le <;> omega
          rw [hb, if_neg (by omega)]
          simp; omega
  · cases r1

/-- C189. With wrapping arithmetic three integers may be ordered in a circle: no arrangement of them is sorted, so sorting has no
    meaning. -/
theorem intcmp_wrap_cycle (a b c : List Byte) (h1 : val a < val b) (h2 : val b < val c) (h3 : val b - val a ≤ 2147483647)
    (h4 : val c - val b ≤ 2147483647) (h5 : 2147483648 < val c - val a) (xs : List (List Byte)) (hx : xs.Perm [a, b, c]) :
    ¬ xs.Pairwise fun x y => intcmpW x y ≤ 0 := by
  have hra := val_range a
  have hrc := val_range c
  have e1 : intcmpW b a > 0 := by
    have : intcmpW b a = val b - val a := by show Int.bmod _ _ = _; apply Int.bmod_eq_of_le <;> omega
    omega
  have e2 : intcmpW c b > 0 := by
    have : intcmpW c b = val c - val b := by show Int.bmod _ _ = _; apply Int.bmod_eq_of_le <;> omega
    omega
  have e3 : intcmpW a c > 0 := by
    have : intcmpW a c = val a - val c + 4294967296 := by
      show Int.bmod _ _ = _; rw [← Int.add_bmod_right]; apply Int.bmod_eq_of_le <;> omega
    omega
  intro hp
  have hba : ∀ x y, x ∈ xs → y ∈ xs → x ≠ y → intcmpW x y ≤ 0 ∨ intcmpW y x ≤ 0 := by
    intro x y hx hy hxy
    obtain ⟨i, hi, rfl⟩ := List.getElem_of_mem hx
    obtain ⟨j, hj, rfl⟩ := List.getElem_of_mem hy
    rw [List.pairwise_iff_getElem] at hp
    rcases Nat.lt_trichotomy i j with h | h | h
    · exact .inl (hp i j hi hj h)
    · subst h; exact absurd rfl hxy
    · exact .inr (hp j i hj hi h)
  have hl : xs.length = 3 := hx.length_eq
  obtain ⟨p, q, r, rfl⟩ : ∃ p q r, xs = [p, q, r] := by
    match xs, hl with
    | [p, q, r], _ => exact ⟨p, q, r, rfl⟩
  have hp1 : intcmpW p q ≤ 0 ∧ intcmpW p r ≤ 0 ∧ intcmpW q r ≤ 0 := by simpa [and_assoc] using hp
  have hmem : ∀ x ∈ [p, q, r], x = a ∨ x = b ∨ x = c := fun x hx' => by simpa using hx.mem_iff.1 hx'
  have hnd : [p, q, r].Nodup := by
    refine (hx.nodup_iff).2 ?_
    have : a ≠ b := fun e => by rw [e] at h1; omega
    have : b ≠ c := fun e => by rw [e] at h2; omega
    have : a ≠ c := fun e => by rw [e] at h5; omega
    simp [*]
  simp at hnd
  obtain ⟨⟨n1, n2⟩, n3⟩ := hnd
  rcases hmem p (by simp) with rfl | rfl | rfl <;> rcases hmem q (by simp) with rfl | rfl | rfl <;>
    rcases hmem r (by simp) with rfl | rfl | rfl <;> first | (exact absurd rfl n1) | (exact absurd rfl n2) | (exact absurd rfl n3) | omega

/-- C189. tests/bmap_bench.c:111-130 for any number of items up to 2^31, memory being granted: every insertion succeeds, every key is
    contained, and each lookup of a key below `N` returns the value equal to it. -/
theorem test_bmap_int (bs : List Byte → List (List Byte) → (List Byte → List Byte → C Int) → C (Option Nat)) (hbs : BsearchOk bs)
    (N : Nat) (hN : N ≤ 2^31) (seeks : List Nat) (hs : ∀ s ∈ seeks, s < N) (hl : seeks.length < 2^60) (f1 f2 : Int → Nat → Byte) :
    let nums : List Int := (List.range N).map Int.ofNat
    ∃ (b : Bmap.BM) (is : List Nat), is.length = N ∧
      Subcmp.run ⟨4, 4, intcmp, bs⟩ Bmap.init ((nums.map fun i => .insert (int4 i) (int4 i) (some (f1 i)) (some (f2 i))) ++
        ((nums.map fun i => .contains (int4 i)) ++ seeks.map fun s => .get (int4 s))) =
      .ok (b, (is.map fun i => .idx (some i)) ++ (List.replicate N (.bool true) ++ seeks.map fun s => .item (some (int4 s)))) := by
  intro nums
  have hnum : ∀ i ∈ nums, 0 ≤ i ∧ i < N := by
    intro i hi
    obtain ⟨j, hj, rfl⟩ := List.mem_map.1 hi
    have := List.mem_range.1 hj
    simp; omega
  have hr : ∀ i ∈ nums, -2147483648 ≤ i ∧ i ≤ 2147483647 := fun i hi => by have := hnum i hi; omega
  have hlen : nums.length = N := by simp [nums]
  have hss : (seeks.map fun (s : Nat) => (Op.get (int4 (s : Int)))) = (seeks.map Int.ofNat).map fun i => Op.get (int4 i) := by
    rw [List.map_map]; rfl
  rw [hss]
  have hsr : ∀ i ∈ seeks.map Int.ofNat, 0 ≤ i ∧ i < N := by
    intro i hi
    obtain ⟨j, hj, rfl⟩ := List.mem_map.1 hi
    have := hs j hj
    simp; omega
  have hsr' : ∀ i ∈ seeks.map Int.ofNat, -2147483648 ≤ i ∧ i ≤ 2147483647 := fun i hi => by have := hsr i hi; omega
  generalize hops : ((nums.map fun i => Op.insert (int4 i) (int4 i) (some (f1 i)) (some (f2 i))) ++
        ((nums.map fun i => Op.contains (int4 i)) ++ (seeks.map Int.ofNat).map fun i => Op.get (int4 i))) = ops
  have hkey : ∀ op ∈ ops, 0 ≤ val (key op) ∧ val (key op) < N := by
    intro op hop
    rw [← hops] at hop
    rcases List.mem_append.1 hop with h | h
    · obtain ⟨i, hi, rfl⟩ := List.mem_map.1 h
      show 0 ≤ val (int4 i) ∧ val (int4 i) < N
      rw [val_int4 (hr i hi)]; exact hnum i hi
    · rcases List.mem_append.1 h with h | h
      · obtain ⟨i, hi, rfl⟩ := List.mem_map.1 h
        show 0 ≤ val (int4 i) ∧ val (int4 i) < N
        rw [val_int4 (hr i hi)]; exact hnum i hi
      · obtain ⟨i, hi, rfl⟩ := List.mem_map.1 h
        show 0 ≤ val (int4 i) ∧ val (int4 i) < N
        rw [val_int4 (hsr' i hi)]; exact hsr i hi
  have hol : ops.length = N + (N + seeks.length) := by rw [← hops]; simp [hlen]
  obtain ⟨b, rs, M, e, st⟩ := intmap_is_map bs hbs 4 (by decide) ops (by omega) (by omega)
    (fun k v a1 a2 h => by
      rw [← hops] at h
      rcases List.mem_append.1 h with h | h
      · obtain ⟨i, hi, h⟩ := List.mem_map.1 h
        cases h
        exact ⟨Tglist.leBytes_length _ _, Tglist.leBytes_length _ _⟩
      · rcases List.mem_append.1 h with h | h
        · obtain ⟨i, hi, h⟩ := List.mem_map.1 h
          cases h
        · obtain ⟨i, hi, h⟩ := List.mem_map.1 h
          cases h)
    (fun p hp q hq => by have := hkey p hp; have := hkey q hq; omega)
  rw [← hops] at st
  obtain ⟨M1, r1, r23, rfl, s1, s23⟩ := steps_append _ st
  obtain ⟨M2, r2, r3, rfl, s2, s3⟩ := steps_append _ s23
  obtain ⟨⟨is, l1, rfl⟩, hm⟩ := steps_insert f1 f2 int4 nums hr s1
  obtain ⟨rfl, rfl⟩ := steps_contains nums hr s2
  obtain ⟨_, rfl⟩ := steps_get _ hsr' s3
  refine ⟨b, is, by rw [l1, hlen], ?_⟩
  rw [e]
  have hin : ∀ i, 0 ≤ i → i < (N : Int) → i ∈ nums := by
    intro i h0 h1
    exact List.mem_map.2 ⟨i.toNat, List.mem_range.2 (by omega), by simp; omega⟩
  have g1 : (nums.map fun i => Res.bool (M2 i).isSome) = List.replicate N (Res.bool true) := by
    rw [List.eq_replicate_iff]
    refine ⟨by simp [hlen], fun r hr' => ?_⟩
    obtain ⟨i, hi, rfl⟩ := List.mem_map.1 hr'
    rw [hm, if_pos hi]; rfl
  have g2 : ((seeks.map Int.ofNat).map fun i => Res.item (M2 i)) = seeks.map fun (s : Nat) => Res.item (some (int4 s)) := by
    rw [List.map_map]
    apply List.map_congr_left
    intro s hs'
    have := hsr _ (List.mem_map.2 ⟨s, hs', rfl⟩)
    show Res.item (M2 (Int.ofNat s)) = _
    rw [hm, if_pos (hin _ this.1 this.2)]; rfl
  rw [g1, g2]

/-- A `bsearch` for the examples: linear search; undefined if the comparison is. -/
def linSearchC (key : List Byte) (xs : List (List Byte)) (cmp : List Byte → List Byte → C Int) : C (Option Nat) :=
  match xs with
  | [] => pure none
  | x :: xs => do
    if (← cmp key x) = 0 then pure (some 0) else pure ((← linSearchC key xs cmp).map (· + 1))

theorem linSearchC_ok : BsearchOk linSearchC := by
  intro key xs cmp f hf _
  induction xs with
  | nil => exact .inr ⟨rfl, by simp⟩
  | cons x xs ih =>
    rw [linSearchC, hf x (by simp), ok_bindE]
    by_cases h : f x = 0
    · rw [if_pos h]; exact .inl ⟨0, by simp, rfl, h⟩
    · rw [if_neg h]
      rcases ih (fun y hy => hf y (by simp [hy])) (List.Pairwise.of_cons ‹_›) with ⟨i, hi, e, hz⟩ | ⟨e, hz⟩
      · exact .inl ⟨i + 1, by simpa using hi, by rw [e]; rfl, by simpa using hz⟩
      · exact .inr ⟨by rw [e]; rfl, by simpa [h] using hz⟩

/-- Keys from -2^30 to 2^30-1 are fine. -/
def intDemo : List Op :=
  [.insert (int4 (-1073741824)) [1] (some fun _ => 0) (some fun _ => 0), .insert (int4 1073741823) [2] none none, .get (int4 (-1073741824)),
   .del (int4 1073741823), .contains (int4 1073741823)]

example : (∀ k v a1 a2, Op.insert k v a1 a2 ∈ intDemo → k.length = 4 ∧ v.length = 1) ∧
    ∀ p ∈ intDemo, ∀ q ∈ intDemo, val (key p) - val (key q) ≤ 2147483647 := by
  refine ⟨?_, by decide +kernel⟩
  intro k v a1 a2 h
  simp only [intDemo, List.mem_cons, List.not_mem_nil, or_false, Op.insert.injEq, reduceCtorEq] at h
  rcases h with ⟨rfl, rfl, _⟩ | ⟨rfl, rfl, _⟩ <;> exact ⟨Tglist.leBytes_length _ _, rfl⟩

example : (match Subcmp.run ⟨4, 1, intcmp, linSearchC⟩ Bmap.init intDemo with | .ok (_, rs) => some rs | .error _ => none) =
    some [.idx (some 0), .idx (some 1), .item (some [1]), .bool true, .bool false] := by decide +kernel

/-- -1 and INT_MAX cannot be in one map. -/
example : (match Subcmp.run ⟨4, 1, intcmp, linSearchC⟩ Bmap.init
    [.insert (int4 (-1)) [1] (some fun _ => 0) (some fun _ => 0), .insert (int4 2147483647) [2] none none] with | .ok _ => none | .error e => some e) =
    some .overflow := by decide +kernel

example : val (int4 (-2000000000)) < val (int4 0) ∧ val (int4 0) < val (int4 2000000000) ∧
    val (int4 0) - val (int4 (-2000000000)) ≤ 2147483647 ∧ val (int4 2000000000) - val (int4 0) ≤ 2147483647 ∧
    2147483648 < val (int4 2000000000) - val (int4 (-2000000000)) := by decide +kernel

end Ulz.Props

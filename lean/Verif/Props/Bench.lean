import Verif.Proofs.Bench
import Verif.Props.Bmap
/-! Property theorems about the benchmark programs. -/
namespace Ulz.Props
open Ulz.Bench Ulz.Bench.Spec
open Ulz.Strmap (Mem cfg)
open Ulz.Bmap.Spec (BsearchOk)
open Ulz.Ibmap.Spec (Freeable)

variable {bs : List Byte → List (List Byte) → (List Byte → List Byte → Int) → Option Nat}

/-- C184: `test_bmap` of tests/bmap_bench.c, for every number `N` of items and all values of `rand()%N`: its assertions hold, and it
    returns the sum of the values looked up, unless that sum does not fit in an `int`: then the addition overflows. Afterwards
    all copies of strings that are in the map and its arrays are freed, and nothing else: the copy of "0" for the second insertion is
    not. -/
theorem bmap_bench_result (hbs : BsearchOk bs) (e : Env) (N : Nat) (he : EnvOk e N) (h0 : 0 < N) (hN : N < 2^31)
    (al : Nat → (Nat → Byte) × (Nat → Byte)) (vals : List Nat) (hv : ∀ v ∈ vals, v < N) (μ : Mem) (ka va : Nat) (live : List Nat)
    (hl : live.Nodup) (hf : Freeable (keys e N ++ [ka, va]) live) :
    (2^31 ≤ vals.sum → test_bmap e al bs N vals μ ka va live = .error .overflow) ∧
    (vals.sum < 2^31 → ∃ live', test_bmap e al bs N vals μ ka va live = .ok (some (vals.sum, live')) ∧
      (∀ a, a ∈ live' ↔ a ∈ live ∧ (a = 0 ∨ a ∉ keys e N ++ [ka, va])) ∧
      (e.key N ∈ live → e.key N ≠ ka → e.key N ≠ va → e.key N ∈ live')) := by
  have G := bgood hbs he (by omega : N ≤ 2^31)
  obtain ⟨μ1, b1, f1, f2, f3⟩ := fill_spec G he al N 0 μ Bmap.init (by omega)
    ⟨[], Bmap.init_view (Strmap.cfg_ok hbs (by decide) μ), .nil⟩ (fun j hj => by omega)
  rw [Nat.zero_add] at f2 f3
  let μ2 := Bench.put (Bench.put μ1 e.buf (Numbers.Spec.dec 0)) (e.key N) (Bench.put μ1 e.buf (Numbers.Spec.dec 0) e.buf)
  have hm : ∀ j, j < N → μ2 (e.key j) = μ1 (e.key j) := fun j hj => by
    show Bench.put _ _ _ _ = _
    rw [put_other (fun hh => by have := he.inj j (by omega) N (by omega) hh; omega), put_other (he.key j (by omega)).2.1]
  have hk2 : Kept e N μ2 := fun j hj => by rw [hm j hj, f3 j hj]
  have hz : μ2 (e.key N) = Numbers.Spec.dec 0 := by show Bench.put _ _ _ _ = _; rw [put_same, put_same]
  obtain ⟨b2, i1, i2⟩ := again hbs he (by omega) h0 (G.move (Nat.le_refl _) f2 hm) hk2 hz (al N).1 (al N).2
  obtain ⟨μ3, c1, c2, c3⟩ := check_spec G he N 0 μ2 b2 (by omega) i2 hk2
  have hs := seek_spec G he (by omega) vals 0 μ3 b2 hv (by decide) c2 c3
  rw [Nat.zero_add] at hs
  obtain ⟨live', l1, l2⟩ := bfini he (by omega) c2 ka va live hl hf
  have ht : test_bmap e al bs N vals μ ka va live = (do
      let res ← seek (bapi bs) e vals 0 μ3 b2
      let live ← Ibmap.fini (cfg bs 4 μ3) b2 ka va 1 live
      pure (some (res, live))) := by
    unfold test_bmap
    rw [f1, ok_bind]
    simp only
    rw [show Bmap.insert _ _ _ b1 _ _ = _ from i1, ok_bind]
    simp only [if_true]
    rw [show check (bapi bs) e N 0 _ b2 = _ from c1, ok_bind]
  rw [ht, hs]
  refine ⟨fun h => by rw [if_neg (by omega)]; rfl, fun h => ⟨live', by rw [if_pos h, ok_bind, l1]; rfl, l2, fun h1 h2 h3 => ?_⟩⟩
  refine (l2 _).2 ⟨h1, .inr fun hh => ?_⟩
  rcases List.mem_append.1 hh with hh | hh
  · obtain ⟨j, hj, hh⟩ := List.mem_map.1 hh
    have := List.mem_range.1 hj
    have := he.inj j (by omega) N (by omega) hh
    omega
  · simp only [List.mem_cons, List.not_mem_nil, or_false] at hh
    rcases hh with hh | hh
    · exact h2 hh
    · exact h3 hh

/-- C184: with the numbers of the program (10000 items, 10000 lookups) the sum fits: whatever `rand()` returns, the program runs to its
    end. -/
theorem bmap_bench_runs (hbs : BsearchOk bs) (e : Env) (he : EnvOk e 10000)
    (al : Nat → (Nat → Byte) × (Nat → Byte)) (vals : List Nat) (hv : ∀ v ∈ vals, v < 10000) (hlen : vals.length = 10000) (μ : Mem)
    (ka va : Nat) (live : List Nat) (hl : live.Nodup) (hf : Freeable (keys e 10000 ++ [ka, va]) live) :
    ∃ live', test_bmap e al bs 10000 vals μ ka va live = .ok (some (vals.sum, live')) := by
  have hs : ∀ l : List Nat, (∀ v ∈ l, v < 10000) → l.sum ≤ l.length * 9999 := by
    intro l
    induction l with
    | nil => simp
    | cons v l ih =>
      intro h
      have := h v (by simp)
      have := ih fun w hw => h w (by simp [hw])
      rw [List.sum_cons, List.length_cons]
      omega
  have := hs vals hv
  obtain ⟨live', h, _⟩ := (bmap_bench_result hbs e 10000 he (by omega) (by omega) al vals hv μ ka va live hl hf).2 (by omega)
  exact ⟨live', h⟩

/-- C184: the same for tests/hbmap_bench.c, for every number `N` of items and `nb` of buckets. -/
theorem hbmap_bench_result (hbs : BsearchOk bs) (e : Env) (N nb : Nat) (he : EnvOk e N) (hN : N < 2^31) (h0 : 0 < nb) (hnb : nb < 2^32)
    (al : Nat → (Nat → Byte) × (Nat → Byte)) (vals : List Nat) (hv : ∀ v ∈ vals, v < N) (μ : Mem) (arrs : List (Nat × Nat))
    (ha : arrs.length = nb) (live : List Nat) (hl : live.Nodup)
    (F : List Nat) (hF : F = keys e N ++ arrs.flatMap fun a => [a.1, a.2]) (hf : Freeable F live) :
    (2^31 ≤ vals.sum → test_hbmap e al bs nb N vals μ arrs live = .error .overflow) ∧
    (vals.sum < 2^31 → ∃ live', test_hbmap e al bs nb N vals μ arrs live = .ok (some (vals.sum, live')) ∧
      ∀ a, a ∈ live' ↔ a ∈ live ∧ (a = 0 ∨ a ∉ F)) := by
  subst hF
  have G := hgood (nb := nb) hbs he (by omega : N ≤ 2^31)
  obtain ⟨μ1, b1, f1, f2, f3⟩ := fill_spec G he al N 0 μ (Bmap.hinit nb) (by omega)
    ⟨_, Bmap.hinit_view (hcfg_ok hbs μ) h0 hnb, by simp [Bmap.hinit], by simp [Ents]⟩ (fun j hj => by omega)
  rw [Nat.zero_add] at f2 f3
  let μ2 := Bench.put (Bench.put μ1 e.buf (Numbers.Spec.dec 0)) (e.key N) (Bench.put μ1 e.buf (Numbers.Spec.dec 0) e.buf)
  have hm : ∀ j, j < N → μ2 (e.key j) = μ1 (e.key j) := fun j hj => by
    show Bench.put _ _ _ _ = _
    rw [put_other (fun hh => by have := he.inj j (by omega) N (by omega) hh; omega), put_other (he.key j (by omega)).2.1]
  have hk2 : Kept e N μ2 := fun j hj => by rw [hm j hj, f3 j hj]
  obtain ⟨μ3, c1, c2, c3⟩ := check_spec G he N 0 μ2 b1 (by omega) (G.move (Nat.le_refl _) f2 hm) hk2
  have hs := seek_spec G he (by omega) vals 0 μ3 b1 hv (by decide) c2 c3
  rw [Nat.zero_add] at hs
  obtain ⟨live', l1, l2⟩ := hfini_spec he (by omega) c2 arrs ha live hl hf
  have ht : test_hbmap e al bs nb N vals μ arrs live = (do
      let res ← seek (hapi bs) e vals 0 μ3 b1
      let live ← hfini (hcfg bs μ3).toCfg 1 b1 arrs live
      pure (some (res, live))) := by
    unfold test_hbmap
    rw [f1, ok_bind]
    simp only
    rw [show check (hapi bs) e N 0 _ b1 = _ from c1, ok_bind]
  rw [ht, hs]
  exact ⟨fun h => by rw [if_neg (by omega)]; rfl, fun h => ⟨live', by rw [if_pos h, ok_bind, l1]; rfl, l2⟩⟩

/-- C184: with the numbers of the program (1000000 items, 256 buckets, 10000 lookups) the sum of 10000 values of `rand()%1000000` need
    not fit in an `int`: if they are 214749 or more on average, there is a signed overflow. -/
theorem hbmap_bench_overflows (hbs : BsearchOk bs) (e : Env) (he : EnvOk e 1000000)
    (al : Nat → (Nat → Byte) × (Nat → Byte)) (vals : List Nat) (hv : ∀ v ∈ vals, v < 1000000) (hsum : 10000 * 214749 ≤ vals.sum) (μ : Mem)
    (arrs : List (Nat × Nat)) (ha : arrs.length = 256) (live : List Nat) (hl : live.Nodup)
    (hf : Freeable (keys e 1000000 ++ arrs.flatMap fun a => [a.1, a.2]) live) :
    test_hbmap e al bs 256 1000000 vals μ arrs live = .error .overflow :=
  (hbmap_bench_result hbs e 1000000 256 he (by omega) (by omega) (by omega) al vals hv μ arrs ha live hl _ rfl hf).1 (by omega)

/-- C184: the hash function of tests/hbmap_bench.c evaluates the string as a polynomial at 31, modulo 2^32; bytes from 128 on count as
    negative numbers. -/
theorem hbmap_bench_hash (s : List Byte) (h0 : 0 ∉ s) :
    x31 s = BitVec.ofInt 32 (s.foldl (fun h c => 31 * h + c.toInt) 0) := by
  have h31 : ∀ h : BitVec 32, (h <<< 5) - h = 31#32 * h := by
    intro h
    apply BitVec.eq_of_toNat_eq
    rw [BitVec.toNat_sub, BitVec.toNat_shiftLeft, BitVec.toNat_mul, Nat.shiftLeft_eq]
    have := h.isLt
    simp
    omega
  have hstep : ∀ (t : List Byte) (h : BitVec 32) (x : Int), h = BitVec.ofInt 32 x →
      t.foldl (fun (h : BitVec 32) (c : Byte) => (h <<< 5) - h + c.signExtend 32) h =
        BitVec.ofInt 32 (t.foldl (fun h c => 31 * h + c.toInt) x) := by
    intro t
    induction t with
    | nil => exact fun h x e => e
    | cons c t ih =>
      intro h x e
      refine ih _ _ ?_
      subst e
      show (BitVec.ofInt 32 x <<< 5) - BitVec.ofInt 32 x + c.signExtend 32 = BitVec.ofInt 32 (31 * x + c.toInt)
      rw [h31, BitVec.ofInt_add, BitVec.ofInt_mul]
      rfl
  match s with
  | [] => rfl
  | a :: s =>
    have ha : a.signExtend 32 ≠ 0 := by
      intro hh
      refine h0 (List.mem_cons.2 (.inl ?_))
      apply BitVec.eq_of_toInt_eq
      have := congrArg BitVec.toInt hh
      rw [BitVec.toInt_signExtend_of_le (by decide)] at this
      rw [this]; rfl
    show (if a.signExtend 32 ≠ 0 then _ else _) = _
    rw [if_pos ha]
    exact hstep s _ _ (by show BitVec.ofInt 32 a.toInt = BitVec.ofInt 32 (31 * 0 + a.toInt); rw [show (31 * 0 + a.toInt : Int) = a.toInt by omega])

example : x31 (bytes! "Aa") = 2112#32 ∧ x31 (bytes! "BB") = 2112#32 ∧ x31 [0xff] = 0xffffffff#32 := by
  refine ⟨?_, ?_, ?_⟩ <;> (rw [hbmap_bench_hash _ (by decide)]; rfl)

/-- Addresses for the examples: `buf` at 1, the copies from 8 on, each 16 bytes apart. -/
def benchEnv : Env := ⟨1, fun i => 8 + 16 * i⟩

theorem benchEnv_ok (N : Nat) (h : N < 2^32) : EnvOk benchEnv N :=
  ⟨by decide, fun i hi => by simp only [benchEnv]; omega, fun i _ j _ h => by simp only [benchEnv] at h; omega⟩

/-- The hypotheses can be met: all blocks of a run are allocated, among them the one that is not freed. -/
example (N : Nat) (h : N < 2^32) : EnvOk benchEnv N ∧ (keys benchEnv (N + 1) ++ [3, 5]).Nodup ∧
    Freeable (keys benchEnv N ++ [3, 5]) (keys benchEnv (N + 1) ++ [3, 5]) := by
  have hm : ∀ n a, a ∈ keys benchEnv n ↔ ∃ j, j < n ∧ 8 + 16 * j = a := by simp [keys, benchEnv]
  have hn : ∀ n, (keys benchEnv n ++ [3, 5]).Nodup := by
    intro n
    refine List.nodup_append.2 ⟨List.Pairwise.map _ (fun a b hab => ?_) List.nodup_range, by decide, fun a ha b hb => ?_⟩
    · simp only [benchEnv]; omega
    · obtain ⟨j, hj, rfl⟩ := (hm n a).1 ha
      simp only [List.mem_cons, List.not_mem_nil, or_false] at hb
      omega
  refine ⟨benchEnv_ok N h, hn _, (hn N).filter _, fun p hp _ => ?_⟩
  rcases List.mem_append.1 hp with hp | hp
  · obtain ⟨j, hj, rfl⟩ := (hm N p).1 hp
    exact List.mem_append.2 (.inl ((hm _ _).2 ⟨j, by omega, rfl⟩))
  · exact List.mem_append.2 (.inr hp)

example : ∃ live', test_bmap benchEnv (fun _ => (fun _ => 0, fun _ => 0)) linSearch 3 [2, 0, 2, 1] (fun _ => []) 3 5 [8, 24, 40, 56, 3, 5] =
    .ok (some (5, live')) ∧ (∀ a, a ∈ live' ↔ a = 56) := by
  obtain ⟨live', h1, h2, _⟩ := (bmap_bench_result linSearch_ok benchEnv 3 (benchEnv_ok 3 (by omega)) (by omega) (by omega) (fun _ => (fun _ => 0, fun _ => 0))
    [2, 0, 2, 1] (by simp) (fun _ => []) 3 5 [8, 24, 40, 56, 3, 5] (by decide) ⟨by decide, by decide⟩).2 (by decide)
  refine ⟨live', h1, fun a => ?_⟩
  rw [h2]
  simp only [show keys benchEnv 3 = [8, 24, 40] from rfl]
  simp
  omega

end Ulz.Props

import Verif.Proofs.Badhash
import Verif.Props.Bmap
/-! # Property theorem C180: a hash map whose hash function does not respect its comparison -/
namespace Ulz.Props
open Ulz.Bmap
open Ulz.Bmap.Spec (View Map lookup CfgOk OpOk allIters empty HSteps HStep)
open Ulz.Badhash.Spec (Steps Step sameIn)
open Ulz.Sblist (mul_lt_of)

/-- C180. For *every* hash function: a fresh hbmap with n buckets, under any sequence of insertions,
    lookups and deletions with any allocation failures, touches no foreign memory and behaves as a map
    whose keys are identified when they compare equal *and* their hashes agree modulo n. `hbmap_foreach`
    visits each entry exactly once; two visited keys may compare equal only if they are in different
    buckets. -/
theorem hbmap_any_hash (c : HCfg) (hc : CfgOk c.toCfg) (n : Nat) (h0 : 0 < n) (hn : n < 2^32) (ops : List Op)
    (h32 : ops.length < 2^32) (hk : (2 * ops.length + 4) * c.ksz < 2^64) (hv : (2 * ops.length + 4) * c.vsz < 2^64)
    (hop : ∀ op ∈ ops, OpOk c.toCfg op) :
    ∃ h rs M its, hrun c (hinit n) ops = .ok (h, rs) ∧ Steps (sameIn c n) empty ops M rs ∧ h.length = n ∧
      (∀ k, hget c h k = .ok (M k) ∧
        match M k with
        | none => hfind c h k = .ok (-1#64)
        | some v => ∃ it k', hfind c h k = .ok it ∧ it ∈ its ∧ hgetkey c h it = .ok k' ∧ sameIn c n k k' ∧
            hgetval c h it = .ok v) ∧
      (∀ fuel, its.length < fuel → foreach h fuel = .ok its) ∧
      its.Pairwise (fun a b => a.toNat < b.toNat) ∧
      (∀ it ∈ its, ∃ k v, hgetkey c h it = .ok k ∧ hgetval c h it = .ok v ∧ M k = some v) ∧
      (∀ it it' k k', it ∈ its → it' ∈ its → hgetkey c h it = .ok k → hgetkey c h it' = .ok k' → sameIn c n k k' →
        it = it') := by
  obtain ⟨h, rs, Ss, r1, r2, r3, r4, r5⟩ := Badhash.hrun_spec hc ops (hinit n) (List.replicate n []) 0
    (Badhash.hinit_view hc h0 hn)
    (by intro S hS; rw [List.eq_of_mem_replicate hS]; simp) (by simpa using h32) (by simpa using hk)
    (by simpa using hv) hop
  simp only [Nat.zero_add] at r4
  have he : hlook c (List.replicate n []) = empty := by
    funext k
    simp [hlook, lookup, empty, List.getD_eq_getElem?_getD]
    rw [List.getElem?_replicate]
    split <;> simp
  rw [he, List.length_replicate] at r2
  have hk0 : ops.length * c.ksz < 2^64 := mul_lt_of hk (by omega)
  have hv0 : ops.length * c.vsz < 2^64 := mul_lt_of hv (by omega)
  have hln : h.length = n := by simpa [hinit] using r5
  have hSn : Ss.length = n := by rw [← r3.len, hln]
  refine ⟨h, rs, _, allIters h, r1, r2, hln, ?_, ?_, allIters_sorted r3 r4 h32, ?_, ?_⟩
  · intro k
    refine ⟨Badhash.hget_spec hc r3 r4 h32 hk0 hv0 k, ?_⟩
    obtain ⟨hb, ⟨i, hi, f1, f2, f3⟩ | ⟨f1, f2, f3⟩⟩ := Badhash.hfind_spec hc r3 r4 h32 hk0 k
    · rw [f3]
      have e := entry_spec r3 r4 h32 hk0 hv0 hb hi
      refine ⟨_, _, f1, e.1, e.2.1, ?_, e.2.2⟩
      have hh := r3.home _ hb _ (List.getElem_mem hi)
      have hb2 : bidx c Ss k = (c.hash k).toNat % n := by unfold bidx; rw [hSn]
      rw [hln] at hh
      simp only [sameIn, Bool.and_eq_true, decide_eq_true_eq]
      exact ⟨f2, by omega⟩
    · rw [f3]
      exact f1
  · intro fuel hf
    exact foreach_spec r3.pos r3.small (fun b => bsize_lt r3 r4 h32) fuel hf
  · intro it hit
    obtain ⟨b, hb, i, hi, rfl⟩ := mem_allIters r3 hit
    have e := entry_spec r3 r4 h32 hk0 hv0 hb hi
    exact ⟨_, _, e.2.1, e.2.2, Badhash.hlook_entry hc r3 hb hi⟩
  · intro it it' k k' hit hit' hk1 hk2 hc0
    obtain ⟨b, hb, i, hi, rfl⟩ := mem_allIters r3 hit
    obtain ⟨b', hb', i', hi', rfl⟩ := mem_allIters r3 hit'
    have e := entry_spec r3 r4 h32 hk0 hv0 hb hi
    have e' := entry_spec r3 r4 h32 hk0 hv0 hb' hi'
    rw [e.2.1] at hk1
    rw [e'.2.1] at hk2
    cases hk1
    cases hk2
    simp only [sameIn, Bool.and_eq_true, decide_eq_true_eq] at hc0
    exact Badhash.entry_unique hc r3 hb hi hb' hi' hc0.1 (by rw [hSn]; exact hc0.2)

/-- C180, one bucket: with a single bucket every hash function is good enough, the container is the
    mathematical map of C40. -/
theorem hbmap_one_bucket (c : HCfg) (hc : CfgOk c.toCfg) (ops : List Op)
    (h32 : ops.length < 2^32) (hk : (2 * ops.length + 4) * c.ksz < 2^64) (hv : (2 * ops.length + 4) * c.vsz < 2^64)
    (hop : ∀ op ∈ ops, OpOk c.toCfg op) :
    ∃ h rs M, hrun c (hinit 1) ops = .ok (h, rs) ∧ HSteps c.cmp empty ops M rs ∧ ∀ k, hget c h k = .ok (M k) := by
  obtain ⟨h, rs, M, its, r1, r2, _, r3, rx⟩ := hbmap_any_hash c hc 1 (by omega) (by omega) ops h32 hk hv hop
  refine ⟨h, rs, M, r1, ?_, fun k => (r3 k).1⟩
  have hs : ∀ k k', sameIn c 1 k k' = decide (c.cmp k k' = 0) := by
    intro k k'; simp [sameIn, Nat.mod_one]
  clear r1 r3 rx hop hk hv h32
  generalize empty = M0 at r2 ⊢
  induction r2 with
  | nil => exact .nil
  | @cons M op M' r ops M'' rs hst _ ih =>
    refine .cons ?_ ih
    cases hst with
    | @insert k v a1 a2 =>
      have : Badhash.Spec.upd (sameIn c 1) M k v = Bmap.Spec.upd c.cmp M k v := by
        funext x; simp [Badhash.Spec.upd, Bmap.Spec.upd, hs]
      rw [this]; exact .insert
    | insertFail a b => exact .insertFail a b
    | get => exact .get
    | contains => exact .contains
    | @del k =>
      have : Badhash.Spec.rem (sameIn c 1) M k = Bmap.Spec.rem c.cmp M k := by
        funext x; simp [Badhash.Spec.rem, Bmap.Spec.rem, hs]
      rw [this]; exact .del

/-- C180, the exact consequence. Two keys that compare equal, stored one after the other: the second
    store replaces the first exactly if the two hashes agree modulo the number of buckets. Otherwise both
    are stored, and deleting one leaves the other. -/
theorem hbmap_split_keys (c : HCfg) (hc : CfgOk c.toCfg) (n : Nat) (h0 : 0 < n) (hn : n < 2^32)
    (hk : c.ksz < 2^59) (hv : c.vsz < 2^59) (k k' v v' : List Byte) (hkl : k.length = c.ksz) (hkl' : k'.length = c.ksz)
    (hvl : v.length = c.vsz) (hvl' : v'.length = c.vsz) (heq : c.cmp k k' = 0) (f1 f2 f3 f4 : Nat → Byte) :
    let agree := (c.hash k).toNat % n = (c.hash k').toNat % n
    ∃ h, hrun c (hinit n) [.insert k v (some f1) (some f2), .contains k', .insert k' v' (some f3) (some f4),
        .get k, .get k', .del k', .get k] =
      .ok (h, [.iter false, .bool (decide agree), .iter false, .item (some (if agree then v' else v)), .item (some v'),
        .bool true, .item (if agree then none else some v)]) := by
  intro agree
  obtain ⟨h, rs, M, its, r1, r2, _⟩ := hbmap_any_hash c hc n h0 hn
    [.insert k v (some f1) (some f2), .contains k', .insert k' v' (some f3) (some f4), .get k, .get k', .del k', .get k]
    (by simp) (by simp; omega) (by simp; omega) (by simp [OpOk, hkl, hkl', hvl, hvl'])
  refine ⟨h, ?_⟩
  rw [r1]
  have heq' : c.cmp k' k = 0 := cmp_symm hc.cmp heq
  have s1 : sameIn c n k k' = decide agree := by simp [sameIn, heq, agree]
  have s2 : sameIn c n k' k = decide agree := by simp [sameIn, heq', agree, eq_comm]
  have s3 : sameIn c n k k = true := by simp [sameIn, hc.cmp.refl]
  have s4 : sameIn c n k' k' = true := by simp [sameIn, hc.cmp.refl]
  have nofail : ∀ {M k v M' r} {g1 g2 : Nat → Byte}, Step (sameIn c n) M (.insert k v (some g1) (some g2)) M' r →
      M' = Badhash.Spec.upd (sameIn c n) M k v ∧ r = .iter false := by
    intro M k v M' r g1 g2 h
    cases h with
    | insert => exact ⟨rfl, rfl⟩
    | insertFail _ b => rcases b with b | b <;> cases b
  cases r2 with | cons e1 r2 =>
  cases r2 with | cons e2 r2 =>
  cases r2 with | cons e3 r2 =>
  cases r2 with | cons e4 r2 =>
  cases r2 with | cons e5 r2 =>
  cases r2 with | cons e6 r2 =>
  cases r2 with | cons e7 r2 =>
  cases r2
  obtain ⟨rfl, rfl⟩ := nofail e1
  cases e2
  obtain ⟨rfl, rfl⟩ := nofail e3
  cases e4
  cases e5
  cases e6
  cases e7
  by_cases ha : agree <;> simp [Badhash.Spec.upd, Badhash.Spec.rem, s1, s2, s3, s4, ha, empty]

/-- Keys are compared by their first byte, but hashed by their second. -/
def badHCfg : HCfg := { demoCfg with hash := fun k => BitVec.ofNat 32 (k.getD 1 0).toNat }

example : CfgOk badHCfg.toCfg := demoCfg_ok
example : badHCfg.cmp [5, 0] [5, 1] = 0 ∧
    ¬ (badHCfg.hash [5, 0]).toNat % 3 = (badHCfg.hash [5, 1]).toNat % 3 ∧
    (badHCfg.hash [5, 0]).toNat % 3 = (badHCfg.hash [5, 9]).toNat % 3 := by decide +kernel
example : (∀ op ∈ hbmapDemo, OpOk badHCfg.toCfg op) := by simp [hbmapDemo, OpOk, badHCfg, demoCfg]

/-- With three buckets the key stored as 5,0 is not found as 5,1, and is found as 5,9. -/
example : (do
    let (_, rs) ← hrun badHCfg (hinit 3) [.insert [5, 0] [1] (some fun _ => 0) (some fun _ => 0), .get [5, 1], .get [5, 9]]
    pure rs) = (.ok [.iter false, .item none, .item (some [1])] : C _) := by decide +kernel

end Ulz.Props

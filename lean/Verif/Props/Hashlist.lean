import Verif.Proofs.Hashlist
/-! C42, C43: the hash list. -/
set_option linter.unusedVariables false
namespace Ulz.Props
open Ulz.Hashlist Ulz.Hashlist.Spec
open Ulz.Sblist (mul_lt_of)

/-- C42. A fresh hashlist with `n` buckets, after any sequence of adds with any pattern of allocation
    failures: no foreign memory is touched, each add either returns 0 and logs its value or returns 1
    or -1 and stores nothing, and `hashlist_get` of any hash is a list of exactly the logged values whose
    hash is congruent modulo `n`, in the order of insertion (or NULL, if there are none). -/
theorem hashlist_get_correct (n ds : Nat) (hn : 0 < n) (hds : 0 < ds) (cs : List Add)
    (hb : (cs.length + 8) * ds < 2^64) (hc : ∀ c ∈ cs, c.value.length = ds) :
    ∃ h rs L, run (new n ds) cs = .ok (h, rs) ∧ Steps n [] cs L rs ∧
      ∀ hash, ∃ b, get h hash = .ok b ∧
        match b with
        | none => matching n L hash = []
        | some l => l.count = (matching n L hash).length ∧
            ∀ i, Sblist.content l (Sblist.get l i) = .ok (matching n L hash)[i]? := by
  obtain ⟨h, rs, L, r1, r2, r3, _⟩ := run_spec hn hds cs 0 (new n ds) [] new_inv (by simpa using hb) hc
  simp only [Nat.zero_add] at r3
  refine ⟨h, rs, L, r1, r2, fun hash => ?_⟩
  have hi : hash.toNat % n < h.buckets.length := by rw [r3.len]; exact Nat.mod_lt _ hn
  have hbk := r3.bucket _ hi
  refine ⟨h.buckets[hash.toNat % n], ?_, ?_⟩
  · unfold Hashlist.get
    rw [slot_spec r3 hn]
    simp only [ok_bind]
    exact bucket_spec hi
  · split
    · rename_i e; rw [e] at hbk; exact hbk
    · rename_i l e
      rw [e] at hbk
      refine ⟨hbk.1.count, fun i => Sblist.get_content hbk.1 ?_ i⟩
      rw [hbk.2.1]
      exact mul_lt_of hb (by rw [hbk.1.count]; exact Nat.le_trans (Nat.le_trans valsAt_length r3.log) (by omega))

def hashlistDemo : List Add :=
  [⟨5, [1], true, some fun _ => 0⟩, ⟨1, [2], false, some fun _ => 0⟩, ⟨2, [3], false, none⟩, ⟨3, [4], true, none⟩,
   ⟨4, [5], true, some fun _ => 0⟩, ⟨9, [6], true, none⟩]

/-- Two buckets of the demo table are in use; one add failed without a header (-1), one without items (1). -/
example : (run (new 4 1) hashlistDemo).map (·.2) = .ok [0, 0, -1, 1, 0, 0] := by decide +kernel

/-- C42: the documented failure code is -1, but refusing memory for the items gives 1 (here, for any table
    that has no bucket yet at the slot). -/
theorem hashlist_add_fails_with_one (n ds : Nat) (hn : 0 < n) (hds : 0 < ds) (hash : BitVec 32) (v : List Byte) :
    ∃ h', add true none (new n ds) hash v = .ok (h', 1) := by
  have hi : hash.toNat % n < (new n ds).buckets.length := by simp [new]; exact Nat.mod_lt _ hn
  unfold add ensure
  rw [slot_spec new_inv hn]
  simp only [ok_bind]
  rw [bucket_spec hi]
  have e : (new n ds).buckets[hash.toNat % n] = none := by simp [new]
  rw [e]
  simp only [ok_bind, if_true, Sblist.init, ne_eq, show ¬ (8 = 0) from by decide, not_false_eq_true, pure_eq_ok, Sblist.add,
    Sblist.grow_if_needed, realloc, Option.map_none]
  exact ⟨_, rfl⟩

/-- C43, every table: successive calls of `hashlist_next` on a fresh iterator yield the values bucket by
    bucket, with a NULL in the place of each bucket that exists but is empty; after the last value NULL
    forever. (`stream` lists these results; beyond its end the result is NULL.) -/
theorem hashlist_next_results (h : HL) (B : List (Option (List (List Byte)))) (hr : BucketRep h B) (m : Nat) :
    nexts h m iterInit = .ok ((List.range m).map fun k => ((stream B)[k]?).join) :=
  nexts_spec hr m iterInit _ (Or.inl ⟨rfl, rfl⟩)

/-- C43. After any adds none of which failed, iteration yields every added value exactly once and then
    NULL forever. -/
theorem hashlist_next_visits_all (n ds : Nat) (hn : 0 < n) (hds : 0 < ds) (cs : List Add)
    (hb : (cs.length + 8) * ds < 2^64) (hc : ∀ c ∈ cs, c.value.length = ds)
    (hok : ∀ h rs, run (new n ds) cs = .ok (h, rs) → ∀ r ∈ rs, r = 0) :
    ∃ h rs, ∃ vs : List (List Byte), run (new n ds) cs = .ok (h, rs) ∧ vs.Perm (cs.map (·.value)) ∧
      ∀ m, nexts h m iterInit = .ok ((List.range m).map fun k => vs[k]?) := by
  obtain ⟨h, rs, L, r1, r2, r3, r4⟩ := run_spec hn hds cs 0 (new n ds) [] new_inv (by simpa using hb) hc
  simp only [Nat.zero_add] at r3
  have h0 := hok h rs r1
  have hL : L.map Prod.snd = cs.map (·.value) := by
    have : ∀ {cs L0 L rs}, Steps n L0 cs L rs → (∀ r ∈ rs, r = 0) →
        L.map Prod.snd = L0.map Prod.snd ++ cs.map (·.value) := by
      intro cs
      induction cs with
      | nil => intro L0 L rs hs _; cases hs; simp
      | cons c cs ih =>
        intro L0 L rs hs hz
        cases hs with
        | cons h1 h2 =>
          have hz2 := ih h2 fun x hx => hz x (by simp [hx])
          cases h1 with
          | stored => rw [hz2]; simp
          | noItems => have := hz 1 (by simp); omega
          | noHeader => have := hz (-1) (by simp); omega
    simpa using this r2 h0
  have hne : NE n h L := r4 h0 (by intro i hi hx; simp [new] at hx)
  refine ⟨h, rs, (List.range n).flatMap (valsAt n L), r1, by rw [← hL]; exact all_perm hn L, fun m => ?_⟩
  rw [hashlist_next_results h (contents n h L) (inv_rep r3 (mul_lt_of hb (by omega))), stream_contents r3 hne]
  congr 1
  apply List.map_congr_left
  intro k _
  rw [List.getElem?_map]
  cases ((List.range n).flatMap (valsAt n L))[k]? <;> rfl

def hashlistGood : List Add :=
  [⟨5, [1], true, some fun _ => 0⟩, ⟨3, [2], true, some fun _ => 0⟩, ⟨1, [3], true, some fun _ => 0⟩]

/-- The hypothesis of `hashlist_next_visits_all` holds for this sequence, and its iteration. -/
example : (do
    let (h, rs) ← run (new 4 1) hashlistGood
    pure (rs, ← nexts h 5 iterInit)) = (.ok ([0, 0, 0], [some [1], some [3], some [2], none, none]) : C _) := by
  decide +kernel

/-- C43, a bucket left empty by a failed add: NULL is returned although a value follows. -/
example : (do
    let (h, rs) ← run (new 4 1) [⟨1, [7], true, none⟩, ⟨3, [2], true, some fun _ => 0⟩]
    pure (rs, ← nexts h 3 iterInit)) = (.ok ([1, 0], [none, some [2], none]) : C _) := by
  decide +kernel

end Ulz.Props

import Verif.Proofs.Hliter
import Verif.Props.Hashlist
/-! Property C216: adding to a hashlist while iterating over it. Items are added under their hash `hashOf`, with memory available. -/
namespace Ulz.Props
open Ulz.Hashlist Ulz.Hliter Ulz.Hliter.Spec

/-- C216. Any history of `hashlist_add` and `hashlist_next` on one iterator is defined; the items returned are at any time the first of those
    that were added in time, bucket by bucket and within a bucket in the order added, where an item is in time if the iteration has not passed its
    bucket: it has returned no item of a later bucket, and no NULL. Once NULL is returned all of them have been returned, whatever is added
    afterwards. -/
theorem hashlist_iterate_adding (n ds : Nat) (hn : 0 < n) (hds : 0 < ds) (hashOf : List Byte → BitVec 32) (es : List Ev)
    (hb : (es.length + 8) * ds < 2 ^ 64) (ho : ∀ e ∈ es, Ok ds hashOf e) :
    ∃ h it os, Hliter.run (new n ds) iterInit es = .ok (h, it, os) ∧ returned os <+: allInTime n hashOf os ∧
      (Ended os → returned os = allInTime n hashOf os) := by
  obtain ⟨h, it, os, L, e, -, -, -, -, a, -, w, -⟩ := run_at hn hds (hashOf := hashOf) es 0 (new n ds) [] (fun _ => []) (-1) iterInit [] new_inv
    new_ne (by simp) (by simpa using hb) ho (At.start fun _ _ => rfl)
  simp only [List.nil_append] at a
  obtain ⟨p1, p2⟩ := at_prefix a
  exact ⟨h, it, os, e, p1, fun hx => p2 (w (Or.inl hx))⟩

/-- C216. So no item is returned that was not added, and none more often than it was added. -/
theorem hashlist_iterate_once (n ds : Nat) (hn : 0 < n) (hds : 0 < ds) (hashOf : List Byte → BitVec 32) (es : List Ev)
    (hb : (es.length + 8) * ds < 2 ^ 64) (ho : ∀ e ∈ es, Ok ds hashOf e) :
    ∃ h it os, Hliter.run (new n ds) iterInit es = .ok (h, it, os) ∧ ∃ others, (returned os ++ others).Perm (added os) := by
  obtain ⟨h, it, os, e, ⟨r1, p1⟩, -⟩ := hashlist_iterate_adding n ds hn hds hashOf es hb ho
  obtain ⟨late, hl⟩ := inTime_added hn (hashOf := hashOf) os (-1)
  refine ⟨h, it, os, e, r1 ++ late, ?_⟩
  rw [← List.append_assoc, p1]
  exact hl

/-- C216. The items that were in the list before the iteration began have all been returned when it ends, whatever was added meanwhile. -/
theorem hashlist_iterate_complete (n ds : Nat) (hn : 0 < n) (hds : 0 < ds) (hashOf : List Byte → BitVec 32) (cs : List Add) (es : List Ev)
    (hb : (cs.length + es.length + 8) * ds < 2 ^ 64) (hc : ∀ c ∈ cs, Ok ds hashOf (.add c)) (ho : ∀ e ∈ es, Ok ds hashOf e) :
    ∃ h it os, Hliter.run (new n ds) iterInit (cs.map Ev.add ++ es) = .ok (h, it, os) ∧
      (Ended os → ∃ others, (returned os).Perm (cs.map (·.value) ++ others)) := by
  obtain ⟨h, it, os, e, -, p2⟩ := hashlist_iterate_adding n ds hn hds hashOf (cs.map Ev.add ++ es) (by simpa using hb) (by
    intro e he
    rcases List.mem_append.1 he with he | he
    · obtain ⟨c, hm, rfl⟩ := List.mem_map.1 he
      exact hc c hm
    · exact ho e he)
  refine ⟨h, it, os, e, fun hx => ?_⟩
  obtain ⟨os1, os2, rfl, k1, k2⟩ := run_adds cs es _ _ _ _ _ e
  obtain ⟨rest, hr⟩ := inTime_before hn (hashOf := hashOf) os1 os2 k2
  refine ⟨rest, ?_⟩
  rw [p2 hx, ← k1]
  exact hr

/-- C216. After NULL every further call returns NULL, even if items have been added since. -/
theorem hashlist_iterate_null_stays (n ds : Nat) (hn : 0 < n) (hds : 0 < ds) (hashOf : List Byte → BitVec 32) (es : List Ev)
    (hb : (es.length + 8) * ds < 2 ^ 64) (ho : ∀ e ∈ es, Ok ds hashOf e) :
    ∃ h it os, Hliter.run (new n ds) iterInit es = .ok (h, it, os) ∧
      ∀ os1 os2, os = os1 ++ .next none :: os2 → returned os2 = [] := by
  obtain ⟨h, it, os, L, e, -⟩ := run_at hn hds (hashOf := hashOf) es 0 (new n ds) [] (fun _ => []) (-1) iterInit [] new_inv
    new_ne (by simp) (by simpa using hb) ho (At.start fun _ _ => rfl)
  refine ⟨h, it, os, e, ?_⟩
  rintro os1 os2 rfl
  rw [show os1 ++ Obs.next none :: os2 = (os1 ++ [.next none]) ++ os2 by simp] at e
  obtain ⟨es1, es2, h1, it1, rfl, e1, e2⟩ := run_split _ _ _ _ _ _ _ e
  rw [List.length_append] at hb
  obtain ⟨h', it', os', L', e', v, ne, hL, -, a, -, w, -⟩ := run_at hn hds (hashOf := hashOf) es1 0 (new n ds) [] (fun _ => []) (-1) iterInit []
    new_inv new_ne (by simp) (Sblist.mul_lt_of hb (by omega)) (fun x hx => ho x (List.mem_append.2 (Or.inl hx))) (At.start fun _ _ => rfl)
  rw [e1] at e'
  cases e'
  obtain ⟨h'', it'', os'', L'', e'', -, -, -, -, -, -, -, k⟩ := run_at hn hds (hashOf := hashOf) es2 _ h1 L' _ _ it1 _ v ne hL
    (Sblist.mul_lt_of hb (by omega)) (fun x hx => ho x (List.mem_append.2 (Or.inr hx))) a
  rw [e2] at e''
  cases e''
  exact k (w (Or.inl (by simp [Ended])))

/-- C216. A loop that adds for every item it gets another one of the same or of a later bucket never ends, if the list is not empty. -/
theorem hashlist_worklist_endless (n ds : Nat) (hn : 0 < n) (hds : 0 < ds) (hashOf : List Byte → BitVec 32) (g : List Byte → List Byte)
    (a : Nat → Byte) (hg : ∀ v, v.length = ds → (g v).length = ds ∧ (hashOf v).toNat % n ≤ (hashOf (g v)).toNat % n) (cs : List Add) (hne : cs ≠ [])
    (hc : ∀ c ∈ cs, Ok ds hashOf (.add c)) (fuel : Nat) (hb : (cs.length + fuel + 8) * ds < 2 ^ 64) :
    ∃ h rs, Hashlist.run (new n ds) cs = .ok (h, rs) ∧ workLoop hashOf g a fuel h iterInit = .error .hang := by
  obtain ⟨h, rs, L, e, v, ne, h1, h2⟩ := start_run hn hds (hashOf := hashOf) cs 0 (new n ds) [] new_inv new_ne (by simp) hc
    (Sblist.mul_lt_of hb (by omega))
  rw [Nat.zero_add] at v
  simp only [List.map_nil, List.nil_append] at h2
  refine ⟨h, rs, e, ?_⟩
  have hp := Hashlist.all_perm hn L
  have hlen : (L.map Prod.snd).length = cs.length := by rw [h2, List.length_map]
  refine work_endless hn hds hg fuel cs.length h L (valsAt n L) (-1) iterInit [] v ne h1 ?_ hb (At.start fun _ _ => rfl) ?_ ?_
  · intro x hx
    have : x.2 ∈ cs.map (·.value) := by rw [← h2]; exact List.mem_map_of_mem hx
    obtain ⟨c, hm, e⟩ := List.mem_map.1 this
    rw [← e]
    exact (hc c hm).1
  · rw [hp.length_eq, hlen]
    exact List.length_pos_iff.2 hne
  · exact fun w hw => hp.subset hw

/-- C216. One that adds for every item that was there at the start one of an earlier bucket ends, after one round for each of them: what it
    adds is not returned. -/
theorem hashlist_worklist_ends (n ds : Nat) (hn : 0 < n) (hds : 0 < ds) (hashOf : List Byte → BitVec 32) (g : List Byte → List Byte)
    (a : Nat → Byte) (cs : List Add)
    (hg : ∀ c ∈ cs, (g c.value).length = ds ∧ (hashOf (g c.value)).toNat % n < (hashOf c.value).toNat % n)
    (hc : ∀ c ∈ cs, Ok ds hashOf (.add c)) (hb : (2 * cs.length + 9) * ds < 2 ^ 64) :
    ∃ h rs h', Hashlist.run (new n ds) cs = .ok (h, rs) ∧ workLoop hashOf g a (cs.length + 1) h iterInit = .ok h' := by
  obtain ⟨h, rs, L, e, v, ne, h1, h2⟩ := start_run hn hds (hashOf := hashOf) cs 0 (new n ds) [] new_inv new_ne (by simp) hc
    (Sblist.mul_lt_of hb (by omega))
  rw [Nat.zero_add] at v
  simp only [List.map_nil, List.nil_append] at h2
  have hp := Hashlist.all_perm hn L
  have hlen : (L.map Prod.snd).length = cs.length := by rw [h2, List.length_map]
  obtain ⟨h', e'⟩ := work_ends hn hds (hashOf := hashOf) (g := g) (a := a) (valsAt n L) (by
      intro w hw
      have := hp.subset hw
      rw [h2] at this
      obtain ⟨c, hm, rfl⟩ := List.mem_map.1 this
      exact hg c hm) (cs.length + 1) cs.length h L (-1) iterInit [] v ne h1 (Sblist.mul_lt_of hb (by omega)) (At.start fun _ _ => rfl) (by
      rw [hp.length_eq, hlen]
      simp)
  exact ⟨h, rs, h', e, e'⟩

/-- The hash of the examples: the first byte. -/
def hliterHash (v : List Byte) : BitVec 32 := (v.headD 0).setWidth 32

/-- Items 5 (bucket 1), 3 and 1 of a list of 4 buckets. -/
def hliterGood : List Add := [⟨5, [5], true, some fun _ => 0⟩, ⟨3, [3], true, some fun _ => 0⟩, ⟨1, [1], true, some fun _ => 0⟩]

def hliterEs : List Ev := hliterGood.map .add ++ [.next, .add ⟨9, [9], true, some fun _ => 0⟩, .add ⟨4, [4], true, some fun _ => 0⟩,
  .next, .next, .add ⟨2, [2], true, some fun _ => 0⟩, .next, .add ⟨7, [7], true, some fun _ => 0⟩, .next, .next, .next, .add ⟨11, [11], true, some fun _ => 0⟩,
  .next]

/-- The hypotheses of `hashlist_iterate_adding` hold for a history that adds in the current bucket (9), in an earlier one (4: never
    returned), in a later one (2, 7) and after the end (11: never returned). -/
example : (0 : Nat) < 4 ∧ (hliterEs.length + 8) * 1 < 2 ^ 64 ∧ ∀ e ∈ hliterEs, Ok 1 hliterHash e := by
  refine ⟨by decide, by decide, ?_⟩
  intro e he
  simp only [hliterEs, hliterGood, List.map_cons, List.map_nil, List.cons_append, List.nil_append, List.mem_cons, List.not_mem_nil, or_false] at he
  rcases he with rfl | rfl | rfl | rfl | rfl | rfl | rfl | rfl | rfl | rfl | rfl | rfl | rfl | rfl | rfl | rfl <;>
    first | trivial | exact ⟨rfl, by decide, rfl, _, rfl⟩

/-- What it gives. -/
example : (do
    let r ← Hliter.run (new 4 1) iterInit hliterEs
    pure (returned r.2.2, allInTime 4 hliterHash r.2.2, added r.2.2)) =
    (.ok ([[5], [1], [9], [2], [3], [7]], [[5], [1], [9], [2], [3], [7]], [[5], [3], [1], [9], [4], [2], [7], [11]]) : C _) := by
  decide +kernel

/-- The hypothesis of `hashlist_worklist_endless` holds if the same item is added again. -/
example : ∀ v : List Byte, v.length = 1 → (id v).length = 1 ∧ (hliterHash v).toNat % 4 ≤ (hliterHash (id v)).toNat % 4 :=
  fun _ h => ⟨h, Nat.le_refl _⟩

/-- That of `hashlist_worklist_ends` if the item is counted down. -/
example : ∀ c ∈ hliterGood, ([c.value.headD 0 - 1] : List Byte).length = 1 ∧
    (hliterHash [c.value.headD 0 - 1]).toNat % 4 < (hliterHash c.value).toNat % 4 := by
  intro c hc
  simp only [hliterGood, List.mem_cons, List.not_mem_nil, or_false] at hc
  rcases hc with rfl | rfl | rfl <;> decide

end Ulz.Props

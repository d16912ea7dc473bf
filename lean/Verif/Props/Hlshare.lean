import Verif.Proofs.Hlshare
import Verif.Props.Sbshare
/-! C207: what threads get from a hashlist without a lock. -/
namespace Ulz.Props
open Ulz Ulz.Hlshare Ulz.Hlshare.Spec
open Ulz.Sbshare (Mem Grow upd upd_self upd_ne)

/-- A lock for each bucket is enough: if no two calls on the same bucket overlap, then nothing is undefined, and all calls of all threads together are the
    calls of one history. Any allocation may fail, or move a block, at any time. -/
theorem hashlist_bucket_locks {m : Tab} {f : Nat → List (List Byte)} (h : Holds m f) (prog : Nat → List Op) (hok : ∀ t, ∀ o ∈ prog t, OpOk m.ds o)
    (sched : List Nat) (hb : ∀ d < m.bc, ((f d).length + sched.length + 8) * m.ds < 2^64) (hn : NoOverlap (start m prog) sched) :
    ∃ s, run (start m prog) sched = .ok s ∧ Serial f prog s :=
  inv_run h.bc h.ds hok (fun d hd => by rw [Nat.add_zero]; exact hb d hd) (h.inv prog) hn

/-- Threads that use different buckets need no lock: whatever the schedule, nothing is undefined and all calls together are one history. -/
theorem hashlist_threads_apart {m : Tab} {f : Nat → List (List Byte)} (h : Holds m f) (prog : Nat → List Op) (hok : ∀ t, ∀ o ∈ prog t, OpOk m.ds o)
    (hap : Apart m.bc prog) (sched : List Nat) (hb : ∀ d < m.bc, ((f d).length + sched.length + 8) * m.ds < 2^64) :
    ∃ s, run (start m prog) sched = .ok s ∧ Serial f prog s :=
  hashlist_bucket_locks h prog hok sched hb (apart_noOverlap hap rfl fun _ _ h => h)

/-- A hashlist as `hashlist_new` makes it holds nothing. -/
theorem new_holds {bc ds : Nat} (hbc : 0 < bc) (hds : 0 < ds) : Holds (new bc ds) fun _ => [] :=
  ⟨hbc, hds, fun _ _ => rfl, fun _ _ _ _ _ h => (by cases h), fun _ _ => rfl⟩

/-- Two threads, three buckets: thread 0 uses the buckets 0 and 2, thread 1 the bucket 1. -/
def hsProg : Nat → List Op
  | 0 => [.add 3 [5] true (some (false, fun _ => 0)), .add 5 [6] true none, .look 0 0]
  | 1 => [.add 4 [7] true (some (true, fun _ => 1)), .look 1 0]
  | _ => []

example (sched : List Nat) (hs : sched.length < 2^60) : ∃ s, run (start (new 3 1) hsProg) sched = .ok s ∧ Serial (fun _ => []) hsProg s := by
  refine hashlist_threads_apart (new_holds (by decide) (by decide)) hsProg ?_ ?_ sched ?_
  · intro t o ho
    match t with
    | 0 => simp [hsProg] at ho; rcases ho with rfl | rfl | rfl <;> simp [OpOk, new]
    | 1 => simp [hsProg] at ho; rcases ho with rfl | rfl <;> simp [OpOk, new]
    | n + 2 => simp [hsProg] at ho
  · intro t u htu a ha b hb
    match t, u with
    | 0, 0 => exact absurd rfl htu
    | 0, 1 => simp [hsProg] at ha hb; rcases ha with rfl | rfl | rfl <;> rcases hb with rfl | rfl <;> decide
    | 1, 0 => simp [hsProg] at ha hb; rcases ha with rfl | rfl <;> rcases hb with rfl | rfl | rfl <;> decide
    | 1, 1 => exact absurd rfl htu
    | n + 2, _ => simp [hsProg] at ha
    | 0, n + 2 => simp [hsProg] at hb
    | 1, n + 2 => simp [hsProg] at hb
  · intro d _
    show (0 + sched.length + 8) * 1 < 2^64
    omega

/-- Two threads that add one item each to an empty hashlist with one bucket. -/
def hsAdds : Nat → List Op := fun t => if t < 2 then [.add 9 [5] true (some (false, fun _ => 0))] else []

example : ∃ s, run (start (new 1 1) hsAdds) (List.replicate 20 0 ++ List.replicate 20 1) = .ok s ∧ Serial (fun _ => []) hsAdds s :=
  hashlist_bucket_locks (new_holds (by decide) (by decide)) hsAdds (by intro t o ho; unfold hsAdds at ho; split at ho <;> simp at ho; subst ho; rfl) _
    (fun d _ => by decide)
    (noOverlap_append (one_noOverlap fun _ _ => rfl) fun s' e => one_noOverlap fun u hu => by
      by_cases h0 : u = 0
      · have hp : (run (start (new 1 1) hsAdds) (List.replicate 20 0)).map (fun s => (s.th 0).pc) = .ok .idle := by decide +kernel
        rw [e] at hp
        subst h0
        exact Except.ok.inj hp
      · rw [run_other h0 e]; rfl)

/-- Both threads are about to make the missing bucket. -/
theorem both_mk {m : Tab} (hbc : 0 < m.bc) {t u : Nat} (htu : t ≠ u) {h1 h2 : BitVec 32} {x y : List Byte} {hdr1 hdr2 : Bool} {g k : Grow} {ps qs : List Op}
    (prog : Nat → List Op) (ht : prog t = .add h1 x hdr1 g :: ps) (hu : prog u = .add h2 y hdr2 k :: qs)
    (hd : h2.toNat % m.bc = h1.toNat % m.bc) (hs : m.slots (h1.toNat % m.bc) = none) :
    ∃ th : Nat → Thread, th t = ⟨.add h1 x hdr1 g :: ps, .mk (h1.toNat % m.bc), []⟩ ∧ th u = ⟨.add h2 y hdr2 k :: qs, .mk (h1.toNat % m.bc), []⟩ ∧
      Reach (start m prog) ⟨m, th⟩ := by
  have r1 := reach_path (os := ps) (out := []) (idle_mk (m := m) (h := h1) (x := x) (hdr := hdr1) (g := g) hbc hs) (th := (start m prog).th) (t := t)
    (by simp only [start, ht])
  have r2 := reach_path (os := qs) (out := []) (idle_mk (m := m) (h := h2) (x := y) (hdr := hdr2) (g := k) hbc (by show m.slots (h2.toNat % m.bc) = _; rw [hd]; exact hs))
    (th := upd (start m prog).th t ⟨.add h1 x hdr1 g :: ps, .mk (h1.toNat % m.bc), []⟩) (t := u) (by rw [upd_ne _ _ htu.symm]; simp only [start, hu])
  refine ⟨_, ?_, ?_, r1.trans r2⟩
  · rw [upd_ne _ _ htu, upd_self]
  · rw [upd_self]; show Thread.mk _ (Pc.mk (h2.toNat % m.bc)) _ = _; rw [hd]

/-- Two threads that add the first item of a bucket can both make the bucket: both are told that the item was added, but only one is in the hashlist; the
    other one is in a list that stays allocated and is in no bucket. -/
theorem hashlist_lost_bucket {m : Tab} {f : Nat → List (List Byte)} (h : Holds m f) (hb : 8 * m.ds < 2^64) {t u : Nat} (htu : t ≠ u)
    {h1 h2 : BitVec 32} {x y : List Byte} {v w : Bool × (Nat → Byte)} {ps qs : List Op} (hx : x.length = m.ds) (hy : y.length = m.ds)
    (prog : Nat → List Op) (ht : prog t = .add h1 x true (some v) :: ps) (hu : prog u = .add h2 y true (some w) :: qs)
    (hd : h2.toNat % m.bc = h1.toNat % m.bc) (hs : m.slots (h1.toNat % m.bc) = none) :
    ∃ sched s, run (start m prog) sched = .ok s ∧ s.th t = ⟨ps, .idle, [.int 0]⟩ ∧ s.th u = ⟨qs, .idle, [.int 0]⟩ ∧
      HoldsAt s.tab (h1.toNat % m.bc) [y] ∧
      ∃ l q, s.tab.lists l = some q ∧ Sbshare.Spec.Holds q [x] ∧ ∀ d < m.bc, s.tab.slots d ≠ some l := by
  obtain ⟨th, t1, t2, r0⟩ := both_mk h.bc htu prog ht hu hd hs
  obtain ⟨q1, g1, d1⟩ := mk_add (h := h1) h.ds hb hx v (h1.toNat % m.bc)
  let m1 : Tab := { m with lists := upd m.lists m.next (some q1), next := m.next + 1, slots := upd m.slots (h1.toNat % m.bc) (some m.next) }
  obtain ⟨q2, g2, d2⟩ := mk_add (m := m1) (h := h2) h.ds hb hy w (h1.toNat % m.bc)
  have r1 := reach_done d1 t1
  have r2 := reach_done d2 (th := upd th t ⟨ps, .idle, [] ++ [.int 0]⟩) (t := u) (os := qs) (out := []) (by rw [upd_ne _ _ htu.symm, t2])
  obtain ⟨sched, hsch⟩ := (r0.trans r1).trans r2
  refine ⟨sched, _, hsch, ?_, ?_, ?_, m.next, q1, ?_, g1.2.2, fun d hd hc => ?_⟩
  · dsimp only; rw [upd_ne _ _ htu, upd_self]; rfl
  · dsimp only; rw [upd_self]; rfl
  · unfold HoldsAt
    simp only [upd_self]
    exact ⟨q2, rfl, g2⟩
  · show upd (upd m.lists m.next (some q1)) (m.next + 1) _ _ = _
    rw [upd_ne _ _ (by omega), upd_self]
  · have hc : upd (upd m.slots (h1.toNat % m.bc) (some m.next)) (h1.toNat % m.bc) (some (m.next + 1)) d = some m.next := hc
    rw [upd_upd] at hc
    by_cases e : d = h1.toNat % m.bc
    · subst e; rw [upd_self] at hc; injection hc with hc; omega
    · rw [upd_ne _ _ e] at hc
      have := h.at_ d hd
      unfold HoldsAt at this
      rw [hc] at this
      obtain ⟨q, hq, _⟩ := this
      rw [h.unused _ (Nat.le_refl _)] at hq; cases hq

example : ∃ sched s, run (start (new 1 1) hsAdds) sched = .ok s ∧ s.th 0 = ⟨[], .idle, [.int 0]⟩ ∧ HoldsAt s.tab 0 [[5]] := by
  obtain ⟨sched, s, a, b, _, c, _⟩ := hashlist_lost_bucket (m := new 1 1) (new_holds (by decide) (by decide)) (by decide) (t := 0) (u := 1) (by decide) rfl rfl hsAdds rfl rfl
    (by decide) rfl
  exact ⟨sched, s, a, b, c⟩

/-- If the allocation of one of them fails, the bucket that the other one has made, with the item that it was told was added, is gone. -/
theorem hashlist_erased_bucket {m : Tab} {f : Nat → List (List Byte)} (h : Holds m f) (hb : 8 * m.ds < 2^64) {t u : Nat} (htu : t ≠ u)
    {h1 h2 : BitVec 32} {x y : List Byte} {v : Bool × (Nat → Byte)} {k : Grow} {ps qs : List Op} (hx : x.length = m.ds)
    (prog : Nat → List Op) (ht : prog t = .add h1 x true (some v) :: ps) (hu : prog u = .add h2 y false k :: qs)
    (hd : h2.toNat % m.bc = h1.toNat % m.bc) (hs : m.slots (h1.toNat % m.bc) = none) :
    ∃ sched s, run (start m prog) sched = .ok s ∧ s.th t = ⟨ps, .idle, [.int 0]⟩ ∧ s.th u = ⟨qs, .idle, [.int (-1)]⟩ ∧
      s.tab.slots (h1.toNat % m.bc) = none := by
  obtain ⟨th, t1, t2, r0⟩ := both_mk h.bc htu prog ht hu hd hs
  obtain ⟨q1, g1, d1⟩ := mk_add (h := h1) h.ds hb hx v (h1.toNat % m.bc)
  let m1 : Tab := { m with lists := upd m.lists m.next (some q1), next := m.next + 1, slots := upd m.slots (h1.toNat % m.bc) (some m.next) }
  let m2 : Tab := { m1 with slots := upd m1.slots (h1.toNat % m.bc) none }
  have e2 : m2.slots (h1.toNat % m.bc) = none := upd_self m1.slots (h1.toNat % m.bc) none
  have d2 : Done (.add h2 y false k) m1 (.mk (h1.toNat % m.bc)) m2 (.int (-1)) :=
    ⟨m2, .tst (h1.toNat % m.bc), .step (m1 := m1) (pc1 := .st (h1.toNat % m.bc) none) rfl (.step rfl .refl), by simp only [micro, e2]; rfl⟩
  have r1 := reach_done d1 t1
  have r2 := reach_done d2 (th := upd th t ⟨ps, .idle, [] ++ [.int 0]⟩) (t := u) (os := qs) (out := []) (by rw [upd_ne _ _ htu.symm, t2])
  obtain ⟨sched, hsch⟩ := (r0.trans r1).trans r2
  refine ⟨sched, _, hsch, ?_, ?_, e2⟩
  · dsimp only; rw [upd_ne _ _ htu, upd_self]; rfl
  · dsimp only; rw [upd_self]; rfl

/-- And it can be gone before the other one has used it: then NULL is dereferenced, although every function checks its allocation. -/
theorem hashlist_null_bucket {m : Tab} {f : Nat → List (List Byte)} (h : Holds m f) {t u : Nat} (htu : t ≠ u)
    {h1 h2 : BitVec 32} {x y : List Byte} {g k : Grow} {ps qs : List Op}
    (prog : Nat → List Op) (ht : prog t = .add h1 x true g :: ps) (hu : prog u = .add h2 y false k :: qs)
    (hd : h2.toNat % m.bc = h1.toNat % m.bc) (hs : m.slots (h1.toNat % m.bc) = none) :
    ∃ sched, run (start m prog) sched = .error .nullDeref := by
  obtain ⟨th, t1, t2, r0⟩ := both_mk h.bc htu prog ht hu hd hs
  let m1 : Tab := { m with lists := upd m.lists m.next (some (fresh m.ds)), next := m.next + 1 }
  let m2 : Tab := { m1 with slots := upd m.slots (h1.toNat % m.bc) (some m.next) }
  have e2 : m2.slots (h1.toNat % m.bc) = some m.next := upd_self m.slots (h1.toNat % m.bc) (some m.next)
  let m3 : Tab := { m2 with slots := upd m2.slots (h1.toNat % m.bc) none }
  have e3 : m3.slots (h1.toNat % m.bc) = none := upd_self m2.slots (h1.toNat % m.bc) none
  have p1 : Path (.add h1 x true g) m (.mk (h1.toNat % m.bc)) m2 (.ld (h1.toNat % m.bc)) :=
    .step (m1 := m1) (pc1 := .st (h1.toNat % m.bc) (some m.next)) rfl (.step (m1 := m2) (pc1 := .tst (h1.toNat % m.bc)) rfl
      (.step (by simp only [micro, e2]; rfl) .refl))
  have p2 : Path (.add h2 y false k) m2 (.mk (h1.toNat % m.bc)) m3 (.tst (h1.toNat % m.bc)) :=
    .step (m1 := m2) (pc1 := .st (h1.toNat % m.bc) none) rfl (.step rfl .refl)
  have r1 := reach_path p1 t1
  have r2 := reach_path p2 (th := upd th t ⟨.add h1 x true g :: ps, .ld (h1.toNat % m.bc), []⟩) (t := u) (os := qs) (out := [])
    (by rw [upd_ne _ _ htu.symm, t2])
  refine ((r0.trans r1).trans r2).error (step_at_err (o := .add h1 x true g) (os := ps) (out := []) (pc := .ld (h1.toNat % m.bc)) (t := t) ?_ ?_)
  · simp only [micro, e3]
  · rw [upd_ne _ _ htu, upd_self]

/-- Thread 0 can allocate, thread 1 can not. -/
def hsFail : Nat → List Op
  | 0 => [.add 9 [5] true (some (false, fun _ => 0))]
  | 1 => [.add 4 [6] false none]
  | _ => []

example : (∃ sched s, run (start (new 5 1) hsFail) sched = .ok s ∧ s.th 0 = ⟨[], .idle, [.int 0]⟩ ∧ s.tab.slots 4 = none) ∧
    ∃ sched, run (start (new 5 1) hsFail) sched = .error .nullDeref := by
  obtain ⟨sched, s, a, b, _, c⟩ := hashlist_erased_bucket (m := new 5 1) (new_holds (by decide) (by decide)) (by decide) (t := 0) (u := 1) (by decide) rfl hsFail rfl rfl
    (by decide) rfl
  exact ⟨⟨sched, s, a, b, c⟩, hashlist_null_bucket (m := new 5 1) (new_holds (by decide) (by decide)) (t := 0) (u := 1) (by decide) hsFail rfl rfl (by decide) rfl⟩

/-- Threads on one bucket that exists are threads on one sblist: whatever a schedule of the calls of `sblist_add` and `sblist_get` gives, some schedule of the
    calls of the hashlist gives too. -/
theorem hashlist_same_bucket {m : Tab} {d l : Nat} {q : Mem} (hbc : 0 < m.bc) (hs : m.slots d = some l) (hl : m.lists l = some q) (prog : Nat → List Op)
    (hp : ∀ t, ∀ o ∈ prog t, bkt m.bc o = d) (sched : List Nat) :
    (∀ e, Sbshare.run (Sbshare.start q fun t => (prog t).map inner) sched = .error e → ∃ sched', run (start m prog) sched' = .error e) ∧
    ∀ s, Sbshare.run (Sbshare.start q fun t => (prog t).map inner) sched = .ok s → ∃ sched' s', run (start m prog) sched' = .ok s' ∧
      s'.tab = { m with lists := upd m.lists l (some s.mem) } ∧
      ∀ t, (s'.th t).calls.map inner = (s.th t).calls ∧ (s'.th t).out = (s.th t).out.map give ∧ ((s.th t).pc = .idle → (s'.th t).pc = .idle) := by
  have hsim : Sim m d l (Sbshare.start q fun t => (prog t).map inner) (start m prog) :=
    ⟨by show m = _; rw [show (Sbshare.start q fun t => (prog t).map inner).mem = q from rfl, upd_same _ hl], fun _ => rfl, fun _ => rfl, hp, fun _ _ => rfl,
      fun _ h => absurd rfl h⟩
  obtain ⟨a, b⟩ := sim_run hbc hs sched hsim
  refine ⟨a, fun s h => ?_⟩
  obtain ⟨s', ⟨sc, hsc⟩, i⟩ := b s h
  exact ⟨sc, s', hsc, i.tab, fun t => ⟨i.calls t, i.out t, i.idle t⟩⟩

/-- So an item can be lost in a bucket that exists and has room: both threads are told that theirs was added. -/
theorem hashlist_lost_item {m : Tab} {d l : Nat} {q : Mem} {ys : List (List Byte)} (hbc : 0 < m.bc) (hs : m.slots d = some l) (hl : m.lists l = some q)
    (hz : q.isz = m.ds) (h8 : q.bi = 8) (h : Sbshare.Spec.Holds q ys) (hroom : ys.length < q.capa) (hb : q.capa * q.isz < 2^64) {t u : Nat} (htu : t ≠ u)
    {h1 h2 : BitVec 32} {x y : List Byte} {hdr1 hdr2 : Bool} {g k : Grow} (hx : x.length = m.ds) (hy : y.length = m.ds) (hd1 : h1.toNat % m.bc = d)
    (hd2 : h2.toNat % m.bc = d) (prog : Nat → List Op) (ht : prog t = [.add h1 x hdr1 g]) (hu : prog u = [.add h2 y hdr2 k])
    (ho : ∀ a, a ≠ t → a ≠ u → prog a = []) :
    ∃ sched s, run (start m prog) sched = .ok s ∧ (s.th t).out = [.int 0] ∧ (s.th u).out = [.int 0] ∧ (∀ a, (s.th a).calls = []) ∧
      HoldsAt s.tab d (ys ++ [y]) := by
  obtain ⟨sc, s, e1, e2, e3, e4⟩ := sblist_lost_item h hroom hb htu (g := g) (k := k) (ps := []) (qs := []) (by rw [hz]; exact hx) (by rw [hz]; exact hy)
    (fun a => (prog a).map inner) (by simp only [ht]; rfl) (by simp only [hu]; rfl)
  have hp : ∀ a, ∀ o ∈ prog a, bkt m.bc o = d := by
    intro a o hm
    by_cases at_ : a = t
    · subst at_; rw [ht] at hm; cases List.mem_singleton.1 hm; exact hd1
    · by_cases au : a = u
      · subst au; rw [hu] at hm; cases List.mem_singleton.1 hm; exact hd2
      · rw [ho a at_ au] at hm; cases hm
  obtain ⟨sc', s', f1, f2, f3⟩ := (hashlist_same_bucket hbc hs hl prog hp sc).2 s e1
  refine ⟨sc', s', f1, by rw [(f3 t).2.1, e2]; rfl, by rw [(f3 u).2.1, e3]; rfl, fun a => ?_, ?_⟩
  · by_cases at_ : a = t
    · subst at_; have := (f3 a).1; rw [e2] at this; simpa using this
    · by_cases au : a = u
      · subst au; have := (f3 a).1; rw [e3] at this; simpa using this
      · cases hc : (s'.th a).calls with
        | nil => rfl
        | cons o os =>
          exfalso
          have : o ∈ prog a := run_calls f1 a o (by rw [hc]; simp)
          rw [ho a at_ au] at this; cases this
  · unfold HoldsAt
    rw [f2]
    simp only [hs, upd_self]
    obtain ⟨z1, z2⟩ := Sbshare.run_sizes e1
    exact ⟨s.mem, rfl, by rw [z1]; exact hz, by rw [z2]; exact h8, e4⟩

/-- And a block that was freed can be used when the bucket is full. -/
theorem hashlist_stale_block {m : Tab} {d l : Nat} {q : Mem} {ys : List (List Byte)} (hbc : 0 < m.bc) (hs : m.slots d = some l) (hl : m.lists l = some q)
    (h : Sbshare.Spec.Holds q ys) (hfull : ys.length = q.capa) (hpos : 0 < q.capa) {t u : Nat} (htu : t ≠ u)
    {h1 h2 : BitVec 32} {x y : List Byte} {hdr1 hdr2 : Bool} {fn : Nat → Byte} {k : Grow} {ps qs : List Op}
    (prog : Nat → List Op) (hp : ∀ a, ∀ o ∈ prog a, bkt m.bc o = d) (ht : prog t = .add h1 x hdr1 (some (false, fn)) :: ps)
    (hu : prog u = .add h2 y hdr2 k :: qs) : ∃ sched, run (start m prog) sched = .error .badFree := by
  obtain ⟨sc, e⟩ := sblist_stale_block h hfull hpos htu (x := x) (y := y) (f := fn) (k := k) (ps := ps.map inner) (qs := qs.map inner)
    (fun a => (prog a).map inner) (by simp only [ht]; rfl) (by simp only [hu]; rfl)
  exact (hashlist_same_bucket hbc hs hl prog hp sc).1 _ e

/-- One bucket with the items 7 and 8, and room for one more; and a full one. -/
def hsTab (q : Mem) : Tab := ⟨1, 1, fun _ => some 0, fun l => if l = 0 then some q else none, 1⟩

example : ∃ sched s, run (start (hsTab { Props.shMem with bi := 8 }) hsAdds) sched = .ok s ∧ HoldsAt s.tab 0 [[7], [8], [5]] := by
  have h : Sbshare.Spec.Holds { Props.shMem with bi := 8 } [[7], [8]] := ⟨⟨by decide, rfl, by decide, by decide, [99], rfl, rfl⟩, rfl, rfl, shMem_holds.fresh⟩
  obtain ⟨sched, s, a, _, _, _, b⟩ := hashlist_lost_item (m := hsTab { Props.shMem with bi := 8 }) (d := 0) (l := 0) (t := 0) (u := 1) (h1 := 9) (h2 := 9) (by decide) rfl rfl rfl rfl h
    (by decide) (by decide) (by decide) rfl rfl (by decide) (by decide) hsAdds rfl rfl (fun a h0 h1 => if_neg (by omega))
  exact ⟨sched, s, a, b⟩

example : ∃ sched, run (start (hsTab shFull) hsAdds) sched = .error .badFree :=
  hashlist_stale_block (m := hsTab shFull) (d := 0) (l := 0) (by decide) rfl rfl shFull_holds rfl (by decide) (t := 0) (u := 1) (by decide) hsAdds
    (fun a o _ => Nat.mod_one _) rfl rfl

end Ulz.Props

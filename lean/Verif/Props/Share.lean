import Verif.Proofs.Share
import Verif.Props.Bmap
/-! C197: looking up keys in one map from several threads. -/
namespace Ulz.Props
open Ulz.Share Ulz.Share.Spec
open Ulz.Bmap (BM Cfg HCfg hfind iterIndex iterBucket isNone)
open Ulz.Bmap.Spec (CfgOk HCfgOk View)
open Ulz.Sblist (mul_lt_of)

/-- C197. Any number of threads look up keys in one bmap that nobody changes. They get the right answers whatever the order of their steps
    exactly if the map is empty, or any two calls of different threads are both not `bmap_get` and have the same answer anyway. (So two
    threads with `bmap_get`, or with different keys, must take turns.) -/
theorem bmap_shared_lookups (c : Cfg) (hc : CfgOk c) (b : BM) (S : List (List Byte × List Byte)) (h : View c b S)
    (hb : S.length * c.ksz < 2^64) (p : Nat → List Call) (tmp : Tmp) :
    (∀ sched, ∃ s, Share.run c b (start p tmp) sched = .ok s ∧ Answered c.cmp S p s) ↔
      S = [] ∨ ∀ t u x y, t ≠ u → x ∈ p t → y ∈ p u →
        x.op ≠ .get ∧ y.op ≠ .get ∧ answer c.cmp S x.op x.key = answer c.cmp S x.op y.key := by
  have hb' : b.keys.count * c.ksz < 2^64 := by rw [h.keys.count]; simpa using hb
  constructor
  · intro H
    by_cases hS : S = []
    · exact .inl hS
    · refine .inr fun t u x y htu hx hy => ?_
      obtain ⟨a, b', ha⟩ := List.append_of_mem hx
      obtain ⟨d, e, hd⟩ := List.append_of_mem hy
      refine ⟨fun hop => ?_, fun hop => ?_, ?_⟩
      · obtain ⟨sched, hs⟩ := crash hc h hb' p tmp hS htu ha hd hop
        obtain ⟨s, h1, _⟩ := H sched
        rw [hs] at h1; cases h1
      · obtain ⟨sched, hs⟩ := crash hc h hb' p tmp hS (Ne.symm htu) hd ha hop
        obtain ⟨s, h1, _⟩ := H sched
        rw [hs] at h1; cases h1
      · obtain ⟨sched, s, h1, h2, h3⟩ := Share.swap hc h hb' p tmp htu ha hd
        obtain ⟨s', g1, g2⟩ := H sched
        rw [h1] at g1
        cases g1
        obtain ⟨done, d1, d2⟩ := g2 t
        rw [ha, h2, List.append_cons] at d1
        have := List.append_cancel_right d1
        rw [h3, ← this, List.map_append] at d2
        have := List.append_cancel_left d2
        simp only [List.map_cons, List.map_nil] at this
        exact (List.cons.inj this).1.symm
  · intro H sched
    obtain ⟨s, h1, h2⟩ := run_inv hc h hb' (p := p) (H.imp id fun H t u x y htu hx hy => H t u x y htu hx hy) sched (start p tmp) (start_inv c b S p tmp)
    exact ⟨s, h1, h2.answered⟩

/-- C197. Threads whose calls do not overlap get the right answers. -/
theorem bmap_serial_lookups (c : Cfg) (hc : CfgOk c) (b : BM) (S : List (List Byte × List Byte)) (h : View c b S)
    (hb : S.length * c.ksz < 2^64) (p : Nat → List Call) (tmp : Tmp) (sched : List Nat) (hn : NoOverlap c b (start p tmp) sched) :
    ∃ s, Share.run c b (start p tmp) sched = .ok s ∧ Answered c.cmp S p s := by
  have hb' : b.keys.count * c.ksz < 2^64 := by rw [h.keys.count]; simpa using hb
  obtain ⟨s, h1, h2⟩ := run_serial hc h hb' (p := p) sched (start p tmp) (start_inv c b S p tmp) hn
  exact ⟨s, h1, h2.answered⟩

/-- C197. Whatever two threads look up in one bmap, some order of their steps gives the call of one of them the answer for the key of the
    other. -/
theorem bmap_shared_swap (c : Cfg) (hc : CfgOk c) (b : BM) (S : List (List Byte × List Byte)) (h : View c b S)
    (hb : S.length * c.ksz < 2^64) (p : Nat → List Call) (tmp : Tmp) (t u : Nat) (htu : t ≠ u) (x y : Call) (cs ds : List Call)
    (hx : p t = x :: cs) (hy : p u = y :: ds) :
    ∃ sched s, Share.run c b (start p tmp) sched = .ok s ∧ (s.th t).calls = cs ∧ (s.th t).out = [answer c.cmp S x.op y.key] := by
  have hb' : b.keys.count * c.ksz < 2^64 := by rw [h.keys.count]; simpa using hb
  obtain ⟨sched, s, h1, h2, h3⟩ := Share.swap hc h hb' p tmp htu (pre := []) (pre' := []) hx hy
  exact ⟨sched, s, h1, h2, h3⟩

/-- A bmap with the keys 3 and 5 (values 2 and 1). Thread 0 gets the value of 3, thread 1 that of 5 or looks whether there is a 4. One after
    the other they are right; with other orders thread 0 gets a pointer to the value of 5, or one far outside, or NULL; or the search
    dereferences the index 0. -/
example : let b : BM := ⟨⟨2, 4, [3, 0, 5, 0, 0, 0, 0, 0]⟩, ⟨2, 4, [2, 1, 0, 0]⟩⟩
    let p (y : Call) (t : Nat) : List Call := if t = 0 then [⟨.get, [3, 0], 4096⟩] else if t = 1 then [y] else []
    [(LookOp.get, (5 : Byte), [0, 0, 0, 0, 1, 1, 1, 1]), (.get, 5, [0, 1, 0, 0, 0, 1, 1, 1]), (.get, 5, [0, 0, 0, 1, 0]),
      (.contains, 4, [0, 1, 0, 0, 0]), (.contains, 4, [0, 1, 0, 0, 1])].map
      (fun (op, k, sched) => match Share.run demoCfg b (start (p ⟨op, [k, 0], 8192⟩) (.idx none)) sched with
        | .ok s => (.ok ((s.th 0).out, (s.th 1).out) : C _) | .error e => .error e) =
    [.ok ([.ptr (some 0)], [.ptr (some 1)]), .error .oobRead, .ok ([.ptr (some 8192)], []), .ok ([.ptr none], []), .error .oobRead] := by
  decide +kernel

/-- The hypotheses are met by this map. -/
example : View demoCfg ⟨⟨2, 4, [3, 0, 5, 0, 0, 0, 0, 0]⟩, ⟨2, 4, [2, 1, 0, 0]⟩⟩ [([3, 0], [2]), ([5, 0], [1])] ∧
    NoOverlap demoCfg ⟨⟨2, 4, [3, 0, 5, 0, 0, 0, 0, 0]⟩, ⟨2, 4, [2, 1, 0, 0]⟩⟩
      (start (fun t => if t = 0 then [⟨.contains, [3, 0], 4096⟩] else []) (.idx none)) [0, 0] := by
  refine ⟨⟨⟨by decide, rfl, by decide, by decide, [0, 0, 0, 0], rfl, rfl⟩, ⟨by decide, rfl, by decide, by decide, [0, 0], rfl, rfl⟩, ?_⟩, ?_, ?_⟩
  · decide
  · intro u hu; rfl
  · intro s' hs'
    cases hs'
    refine ⟨fun u hu => ?_, fun s' _ => trivial⟩
    simp only [Share.upd, if_neg hu]; rfl

/-- What is known of a map after any history. -/
private theorem reached (c : HCfg) (hc : HCfgOk c) (n : Nat) (h0 : 0 < n) (hn : n < 2^32) (ops : List Bmap.Op)
    (h32 : ops.length < 2^32) (hk : (2 * ops.length + 4) * c.ksz < 2^64) (hv : (2 * ops.length + 4) * c.vsz < 2^64)
    (hop : ∀ op ∈ ops, Bmap.Spec.OpOk c.toCfg op) (h : List BM) (rs : List Bmap.HRes) (hr : Bmap.hrun c (Bmap.hinit n) ops = .ok (h, rs)) :
    ∃ B r, Facts c h B r := by
  obtain ⟨h', rs', Ss, r1, r2, r3, r4, r5⟩ := Bmap.hrun_spec hc ops (Bmap.hinit n) (List.replicate n []) 0 (Bmap.hinit_view hc h0 hn)
    (by intro S hS; rw [List.eq_of_mem_replicate hS]; simp) (by simpa using h32) (by simpa using hk)
    (by simpa using hv) hop
  rw [hr] at r1
  cases r1
  simp only [Nat.zero_add] at r4
  exact ⟨_, _, facts hc r3 r4 h32 (mul_lt_of hk (by omega))⟩

private theorem right {c : HCfg} {h : List BM} {B : List Byte → Nat} {r : List Byte → Option Nat} (F : Facts c h B r) {p : Nat → List Call} {s : HSt}
    (H : ∀ t, ∃ done, p t = done ++ (s.th t).calls ∧ (s.th t).out = done.map fun x => hans B r x.op x.key) : HAnswered c h p s := by
  intro t
  obtain ⟨done, d1, d2⟩ := H t
  refine ⟨done, d1, ?_⟩
  rw [d2, List.map_map]
  congr 1
  funext x
  exact (hanswer_eq F x.op x.key).symm

private theorem wrong {c : HCfg} {h : List BM} {B : List Byte → Nat} {r : List Byte → Option Nat} (F : Facts c h B r) {p : Nat → List Call} {s : HSt}
    (H : HAnswered c h p s) {t : Nat} {a b : List Call} {x : Call} {w : HRes} (hx : p t = a ++ x :: b) (hb : (s.th t).calls = b)
    (ho : (s.th t).out = (a.map fun x => hans B r x.op x.key) ++ [w]) : w = hans B r x.op x.key := by
  obtain ⟨done, d1, d2⟩ := H t
  rw [hx, hb, List.append_cons] at d1
  have := List.append_cancel_right d1
  rw [ho, ← this, List.map_append, List.map_append, List.map_map] at d2
  have := List.append_inj_right d2 (by simp)
  simp only [List.map_cons, List.map_nil, hanswer_eq F] at this
  exact Except.ok.inj (List.cons.inj this).1

private theorem first {c : HCfg} {h : List BM} {B : List Byte → Nat} {r : List Byte → Option Nat} (F : Facts c h B r) {k : List Byte}
    (hi : iterIndex (iterOf B r k) = 0) : r k = some 0 := by
  cases hr : r k with
  | none => rw [iterOf_none F hr] at hi; exact absurd hi (by decide)
  | some i => rw [iterOf_some F hr, Bmap.iterIndex_mk (B_lt F k) (F.r_lt _ _ hr)] at hi; rw [hi]

/-- C197. Any number of threads call `hbmap_find` and `hbmap_get` on one hbmap, reached by any history, that nobody changes any more. They get
    the right answers whatever the order of their steps exactly if any two calls of different threads find the same entry, and it is the
    first of its bucket. -/
theorem hbmap_shared_lookups (c : HCfg) (hc : HCfgOk c) (n : Nat) (h0 : 0 < n) (hn : n < 2^32) (ops : List Bmap.Op)
    (h32 : ops.length < 2^32) (hk : (2 * ops.length + 4) * c.ksz < 2^64) (hv : (2 * ops.length + 4) * c.vsz < 2^64)
    (hop : ∀ op ∈ ops, Bmap.Spec.OpOk c.toCfg op) (h : List BM) (rs : List Bmap.HRes) (hr : Bmap.hrun c (Bmap.hinit n) ops = .ok (h, rs))
    (p : Nat → List Call) (hp : ∀ t, ∀ x ∈ p t, x.op ≠ .contains) (it : Bmap.Iter) (kt : Nat → Option (List Byte)) :
    (∀ sched, ∃ s, Share.hrun c h (hstart p it kt) sched = .ok s ∧ HAnswered c h p s) ↔
      ∀ t u x y, t ≠ u → x ∈ p t → y ∈ p u → ∃ i, hfind c h x.key = .ok i ∧ hfind c h y.key = .ok i ∧ iterIndex i = 0 := by
  obtain ⟨B, r, F⟩ := reached c hc n h0 hn ops h32 hk hv hop h rs hr
  constructor
  · intro H
    have key : ∀ t u x y, t ≠ u → x ∈ p t → y ∈ p u → B x.key = B y.key ∧ r x.key = some 0 := by
      intro t u x y htu hx hy
      obtain ⟨a, b, ha⟩ := List.append_of_mem hx
      obtain ⟨d, e, hd⟩ := List.append_of_mem hy
      obtain ⟨sched, s, h1, h2, h3⟩ := overwrite F htu ha hd it kt
      obtain ⟨s', g1, g2⟩ := H sched
      rw [h1] at g1
      cases g1
      have hw := wrong F g2 ha h3 h2
      cases hop' : x.op with
      | contains => exact absurd hop' (hp t x hx)
      | find =>
        rw [hop'] at hw
        simp only [hans] at hw
        have hw := HRes.iter.inj hw
        cases hrx : r x.key with
        | none =>
          rw [iterOf_none F hrx] at hw
          have := Bmap.mkIter_ne (B_lt1 F y.key) (by decide : 0 < 2^32)
          rw [hw] at this; exact absurd this (by decide)
        | some i =>
          rw [iterOf_some F hrx] at hw
          have := Bmap.mkIter_inj (B_lt F y.key) (by decide) (B_lt F x.key) (F.r_lt _ _ hrx) hw
          exact ⟨this.1.symm, by rw [← this.2]⟩
      | get =>
        rw [hop'] at hw
        simp only [hans] at hw
        have hw := HRes.ptr.inj hw
        cases hrx : r x.key with
        | none => rw [hrx] at hw; cases hw
        | some i =>
          rw [hrx] at hw
          have hw := Prod.mk.inj (Option.some.inj hw)
          exact ⟨hw.1.symm, by rw [← hw.2]⟩
    intro t u x y htu hx hy
    obtain ⟨k1, k2⟩ := key t u x y htu hx hy
    obtain ⟨k3, k4⟩ := key u t y x (Ne.symm htu) hy hx
    refine ⟨_, hfind_eq F x.key, ?_, ?_⟩
    · rw [hfind_eq F, iterOf_some F k2, iterOf_some F k4, k1]
    · rw [iterOf_some F k2, Bmap.iterIndex_mk (B_lt F _) (by decide)]
  · intro H sched
    obtain ⟨s, h1, h2⟩ := hrun_inv F (p := p) (fun t u x y htu hx hy => by
      obtain ⟨i, f1, f2, f3⟩ := H t u x y htu hx hy
      rw [hfind_eq F] at f1 f2
      have e1 := Except.ok.inj f1
      have e2 := Except.ok.inj f2
      have r1 := first F (k := x.key) (by rw [e1, f3])
      have r2 := first F (k := y.key) (by rw [e2, f3])
      rw [← e2, iterOf_some F r1, iterOf_some F r2] at e1
      exact ⟨(Bmap.mkIter_inj (B_lt F _) (by decide) (B_lt F _) (by decide) e1).1, r1, r2⟩) sched (hstart p it kt) (hstart_inv B r p it kt)
    exact ⟨s, h1, right F h2.answered⟩

/-- C197. If the threads only call `hbmap_contains`, exactly if any two calls of different threads are about keys that are in the map, in one
    bucket. -/
theorem hbmap_shared_contains (c : HCfg) (hc : HCfgOk c) (n : Nat) (h0 : 0 < n) (hn : n < 2^32) (ops : List Bmap.Op)
    (h32 : ops.length < 2^32) (hk : (2 * ops.length + 4) * c.ksz < 2^64) (hv : (2 * ops.length + 4) * c.vsz < 2^64)
    (hop : ∀ op ∈ ops, Bmap.Spec.OpOk c.toCfg op) (h : List BM) (rs : List Bmap.HRes) (hr : Bmap.hrun c (Bmap.hinit n) ops = .ok (h, rs))
    (p : Nat → List Call) (hp : ∀ t, ∀ x ∈ p t, x.op = .contains) (it : Bmap.Iter) (kt : Nat → Option (List Byte)) :
    (∀ sched, ∃ s, Share.hrun c h (hstart p it kt) sched = .ok s ∧ HAnswered c h p s) ↔
      ∀ t u x y, t ≠ u → x ∈ p t → y ∈ p u → ∃ i j, hfind c h x.key = .ok i ∧ hfind c h y.key = .ok j ∧ isNone i = false ∧ isNone j = false ∧
        iterBucket i = iterBucket j := by
  obtain ⟨B, r, F⟩ := reached c hc n h0 hn ops h32 hk hv hop h rs hr
  constructor
  · intro H
    have key : ∀ t u x y, t ≠ u → x ∈ p t → y ∈ p u → r x.key ≠ none ∧ B x.key = B y.key := by
      intro t u x y htu hx hy
      obtain ⟨a, b, ha⟩ := List.append_of_mem hx
      obtain ⟨d, e, hd⟩ := List.append_of_mem hy
      have hop' := hp t x hx
      have hrx : r x.key ≠ none := by
        intro hrx
        obtain ⟨sched, s, h1, h2, h3⟩ := overwrite F htu ha hd it kt
        obtain ⟨s', g1, g2⟩ := H sched
        rw [h1] at g1
        cases g1
        have hw := wrong F g2 ha h3 h2
        rw [hop'] at hw
        simp only [hans, hrx] at hw
        cases HRes.bool.inj hw
      refine ⟨hrx, ?_⟩
      apply Decidable.byContradiction
      intro hne
      obtain ⟨sched, s, h1, h2, h3⟩ := astray F htu ha hd hop' hne it kt
      obtain ⟨s', g1, g2⟩ := H sched
      rw [h1] at g1
      cases g1
      have hw := wrong F g2 ha h3 h2
      rw [hop'] at hw
      simp only [hans] at hw
      cases hq : r x.key with
      | none => exact hrx hq
      | some i => rw [hq] at hw; cases HRes.bool.inj hw
    intro t u x y htu hx hy
    obtain ⟨k1, k2⟩ := key t u x y htu hx hy
    obtain ⟨k3, _⟩ := key u t y x (Ne.symm htu) hy hx
    obtain ⟨i, hi⟩ := Option.ne_none_iff_exists'.1 k1
    obtain ⟨j, hj⟩ := Option.ne_none_iff_exists'.1 k3
    refine ⟨_, _, hfind_eq F x.key, hfind_eq F y.key, by rw [isNone_iterOf F, hi]; rfl, by rw [isNone_iterOf F, hj]; rfl, ?_⟩
    rw [iterOf_some F hi, iterOf_some F hj, Bmap.iterBucket_mk (B_lt F _) (F.r_lt _ _ hi), Bmap.iterBucket_mk (B_lt F _) (F.r_lt _ _ hj), k2]
  · intro H sched
    have pair : ∀ t u x y, t ≠ u → x ∈ p t → y ∈ p u → r x.key ≠ none ∧ B x.key = B y.key := by
      intro t u x y htu hx hy
      obtain ⟨i, j, f1, f2, f3, f4, f5⟩ := H t u x y htu hx hy
      rw [hfind_eq F] at f1 f2
      have e1 := Except.ok.inj f1
      have e2 := Except.ok.inj f2
      rw [← e1, isNone_iterOf F] at f3
      rw [← e2, isNone_iterOf F] at f4
      rw [← e1, ← e2] at f5
      cases hx' : r x.key with
      | none => rw [hx'] at f3; cases f3
      | some a =>
        cases hy' : r y.key with
        | none => rw [hy'] at f4; cases f4
        | some b =>
          rw [iterOf_some F hx', iterOf_some F hy', Bmap.iterBucket_mk (B_lt F _) (F.r_lt _ _ hx'), Bmap.iterBucket_mk (B_lt F _) (F.r_lt _ _ hy')] at f5
          exact ⟨by simp, f5⟩
    by_cases hex : ∃ t u x y, t ≠ u ∧ x ∈ p t ∧ y ∈ p u
    · obtain ⟨t, u, x, y, htu, hx, hy⟩ := hex
      obtain ⟨s, h1, h2⟩ := wrun_inv F (p := p) (b := B x.key) (fun v z hz => by
        refine ⟨hp v z hz, ?_⟩
        by_cases hvt : v = t
        · subst hvt
          have e1 := pair v u z y htu hz hy
          have e2 := pair v u x y htu hx hy
          exact ⟨by rw [e1.2, e2.2], e1.1⟩
        · have e1 := pair v t z x hvt hz hx
          exact ⟨e1.2, e1.1⟩) sched (hstart p it kt) (wstart_inv B r _ p it kt)
      exact ⟨s, h1, right F h2.answered⟩
    · obtain ⟨s, h1, h2⟩ := hrun_inv F (p := p) (fun t u x y htu hx hy => absurd ⟨t, u, x, y, htu, hx, hy⟩ hex) sched (hstart p it kt)
        (hstart_inv B r p it kt)
      exact ⟨s, h1, right F h2.answered⟩

/-- C197. Threads whose calls do not overlap get the right answers from an hbmap. -/
theorem hbmap_serial_lookups (c : HCfg) (hc : HCfgOk c) (n : Nat) (h0 : 0 < n) (hn : n < 2^32) (ops : List Bmap.Op)
    (h32 : ops.length < 2^32) (hk : (2 * ops.length + 4) * c.ksz < 2^64) (hv : (2 * ops.length + 4) * c.vsz < 2^64)
    (hop : ∀ op ∈ ops, Bmap.Spec.OpOk c.toCfg op) (h : List BM) (rs : List Bmap.HRes) (hr : Bmap.hrun c (Bmap.hinit n) ops = .ok (h, rs))
    (p : Nat → List Call) (it : Bmap.Iter) (kt : Nat → Option (List Byte)) (sched : List Nat) (hs : HNoOverlap c h (hstart p it kt) sched) :
    ∃ s, Share.hrun c h (hstart p it kt) sched = .ok s ∧ HAnswered c h p s := by
  obtain ⟨B, r, F⟩ := reached c hc n h0 hn ops h32 hk hv hop h rs hr
  obtain ⟨s, h1, h2⟩ := hrun_serial F (p := p) sched (hstart p it kt) (hstart_inv B r p it kt) hs
  exact ⟨s, h1, right F h2.answered⟩

/-- The keys 5 and 8 in bucket 2 of 3, and 3 in bucket 0. Thread 0 looks for 5 (the first of its bucket), thread 1 for the key given. Alone,
    thread 0 finds 5; but the start of thread 1's lookup makes the result the first entry of bucket 0, or sends the search into that bucket,
    where 5 is not; an `hbmap_get` then returns a pointer to the value of the key 3, or NULL. If thread 1 looks for 8, in the same bucket,
    thread 0's search can end at 8; whether thread 0 is told 5 is there does not change. -/
example : (do
    let (h, _) ← Bmap.hrun demoHCfg (Bmap.hinit 3) [.insert [5, 0] [1] (some fun _ => 0) (some fun _ => 0),
      .insert [3, 0] [2] (some fun _ => 0) (some fun _ => 0), .insert [8, 0] [7] none none]
    [(LookOp.find, (3 : Byte), [0, 0, 0, 0, 0, 0, 0, 0, 0]), (.find, 3, [0, 0, 0, 0, 0, 0, 0, 0, 1, 0]), (.find, 3, [0, 1, 0, 0, 0, 0, 0, 0, 0, 0]),
      (.get, 3, [0, 0, 0, 0, 0, 0, 0, 0, 1, 0, 0, 0]), (.get, 3, [0, 1, 0, 0, 0, 0, 0, 0, 0, 0]), (.contains, 3, [0, 1, 0, 0, 0, 0, 0, 0, 0, 0]),
      (.find, 8, [0, 0, 0, 1, 1, 1, 0, 0, 0, 0, 0, 0]), (.contains, 8, [0, 0, 0, 1, 1, 1, 0, 0, 0, 0, 0, 0])].mapM
      (fun (op, k, sched) => do
        let s ← Share.hrun demoHCfg h (hstart (fun t => if t = 0 then [⟨op, [5, 0], 4096⟩] else if t = 1 then [⟨.find, [k, 0], 8192⟩] else [])
          0 fun _ => none) sched
        pure (s.th 0).out)) =
    (.ok [[.iter 0x200000000], [.iter 0], [.iter (-1)], [.ptr (some (0, 0))], [.ptr none], [.bool false], [.iter 0x200000001], [.bool true]] : C _) := by
  decide +kernel

/-- Both sides of the equivalences occur: two threads that look for 3, the first of its bucket; two that ask for 5 and 8. -/
example : (do
    let (h, _) ← Bmap.hrun demoHCfg (Bmap.hinit 3) [.insert [5, 0] [1] (some fun _ => 0) (some fun _ => 0),
      .insert [3, 0] [2] (some fun _ => 0) (some fun _ => 0), .insert [8, 0] [7] none none]
    let a ← hfind demoHCfg h [3, 0]
    let b ← hfind demoHCfg h [5, 0]
    let d ← hfind demoHCfg h [8, 0]
    pure (a, iterIndex a, b, d, iterBucket b, iterBucket d)) = (.ok (0, 0, 0x200000000, 0x200000001, 2, 2) : C _) := by decide +kernel

end Ulz.Props

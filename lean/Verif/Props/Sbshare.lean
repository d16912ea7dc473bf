import Verif.Proofs.Sbshare
/-! Theorems about threads that use one sblist without a lock. -/
namespace Ulz.Props
open Ulz.Sbshare Ulz.Sbshare.Spec

/-- Threads that stay apart are safe. Let no thread set an item that another one sets or looks at, let at most one thread add items, let no thread touch
    the places where another one adds, and let there be room for all items that are to be added. Then whatever the order of the steps, nothing is undefined,
    every call gives what it would give if the thread were alone with the list, and when a thread is between two calls every item that no other thread sets
    is what it would be then. -/
theorem sblist_threads_apart {m : Mem} {xs : List (List Byte)} (h : Holds m xs) (prog : Nat → List Op) (hap : Apart xs.length prog)
    (hroom : ∀ t, xs.length + adds (prog t) ≤ m.capa) (hb : m.capa * m.isz < 2^64) (hok : ∀ t, ∀ o ∈ prog t, OpOk m.isz o) (sched : List Nat) :
    ∃ s, run (start m prog) sched = .ok s ∧ ∀ t, ∃ done ys, prog t = done ++ (s.th t).calls ∧ Steps xs done ys (s.th t).out ∧
      ((s.th t).pc = .idle → ∀ i, (∀ u, u ≠ t → ∀ o ∈ prog u, ¬Sets xs.length o i) →
        Sblist.content (view s.mem) (Sblist.get (view s.mem) i) = .ok ys[i]?) := by
  obtain ⟨s, ys, e, hi⟩ := ainv_run hb hap hok (sched := sched) (h.ainv hroom)
  refine ⟨s, e, fun t => ?_⟩
  obtain ⟨done, d1, d2⟩ := hi.steps t
  refine ⟨done, ys t, d1, d2, fun hp i hA => ?_⟩
  have hl := hi.loc t
  rw [hp] at hl
  obtain ⟨c1, c2, c3⟩ := hl
  exact item_of_slots c3 (by rw [hi.isz]; exact hi.sized t)
    (by rw [hi.isz]; exact Sblist.mul_lt_of hb (by have := hi.room t; omega)) c2 (c1.1 i hA) hA

/-- A list of two bytes in a block for three. -/
def shMem : Mem := ⟨1, 2, 2, 3, 1, fun p => if p = 0 then some [] else if p = 1 then some [7, 8, 99] else none, 2⟩

theorem shMem_holds : Holds shMem [[7], [8]] := by
  refine ⟨⟨by decide, rfl, by decide, by decide, [99], rfl, rfl⟩, rfl, rfl, fun p hp => ?_⟩
  have : 2 ≤ p := hp
  simp [shMem, show p ≠ 0 by omega, show p ≠ 1 by omega]

/-- One thread adds, one sets item 0 and looks at it, one looks at item 1. -/
def shProg : Nat → List Op
  | 0 => [.add [5] none, .look 2]
  | 1 => [.set [6] 0, .look 0]
  | 2 => [.look 1]
  | _ => []

example (sched : List Nat) : ∃ s, run (start shMem shProg) sched = .ok s := by
  obtain ⟨s, e, _⟩ := sblist_threads_apart shMem_holds shProg
    (by
      intro t u htu a ha b hb i hs hu
      match t, u with
      | 0, 0 => exact htu rfl
      | 0, 1 =>
        simp [shProg] at ha hb
        rcases ha with rfl | rfl <;> rcases hb with rfl | rfl <;> simp_all [Sets, Uses]
      | 0, 2 =>
        simp [shProg] at ha hb
        subst hb
        rcases ha with rfl | rfl <;> simp_all [Sets, Uses]
      | 1, 0 =>
        simp [shProg] at ha hb
        rcases ha with rfl | rfl <;> rcases hb with rfl | rfl <;> simp_all [Sets, Uses]
      | 1, 1 => exact htu rfl
      | 1, 2 =>
        simp [shProg] at ha hb
        subst hb
        rcases ha with rfl | rfl <;> simp_all [Sets, Uses]
      | 2, _ =>
        simp [shProg] at ha
        subst ha
        exact hs
      | n + 3, _ => simp [shProg] at ha
      | 0, n + 3 => simp [shProg] at hb
      | 1, n + 3 => simp [shProg] at hb)
    (by
      intro t
      match t with
      | 0 => decide
      | 1 => decide
      | 2 => decide
      | n + 3 => simp [shProg, adds, shMem])
    (by decide)
    (by
      intro t o ho
      match t with
      | 0 => simp [shProg] at ho; rcases ho with rfl | rfl <;> simp [OpOk, shMem]
      | 1 => simp [shProg] at ho; rcases ho with rfl | rfl <;> simp [OpOk, shMem]
      | 2 => simp [shProg] at ho; subst ho; simp [OpOk]
      | n + 3 => simp [shProg] at ho) sched
  exact ⟨s, e⟩

/-- Calls that do not overlap, as with a lock around each of them, are safe whatever they are: nothing is undefined, and all calls of all threads together
    are the calls of one history of the list. Growing may fail or move the block at any time. -/
theorem sblist_threads_serial {m : Mem} {xs : List (List Byte)} (h : Holds m xs) (prog : Nat → List Op) (hbi : 0 < m.bi)
    (hok : ∀ t, ∀ o ∈ prog t, OpOk m.isz o) (sched : List Nat) (hb : (xs.length + sched.length + m.bi) * m.isz < 2^64)
    (hn : NoOverlap (start m prog) sched) : ∃ s, run (start m prog) sched = .ok s ∧ Serial xs prog s := by
  refine sinv_run h.z hbi hok hb ⟨[], xs, .nil, fun t => ⟨rfl, rfl⟩, h.base, rfl, rfl, h.rep.item, Nat.le_refl _, 0, fun _ _ => rfl, fun _ _ => rfl, ?_⟩ hn
  exact h.loc _

/-- Two threads add one item each; the second one has to grow the block. -/
def shAdds : Nat → List Op := fun t => if t < 2 then [.add [5] (some (false, fun _ => 0))] else []

example : ∃ s, run (start shMem shAdds) (List.replicate 9 0 ++ List.replicate 15 1) = .ok s ∧ Serial [[7], [8]] shAdds s :=
  sblist_threads_serial shMem_holds shAdds (by decide) (by intro t o ho; unfold shAdds at ho; split at ho <;> simp at ho; subst ho; rfl) _ (by decide)
    (noOverlap_append (one_noOverlap fun _ _ => rfl) fun s' e => one_noOverlap fun u hu => by
      by_cases h0 : u = 0
      · have hp : (run (start shMem shAdds) (List.replicate 9 0)).map (fun s => (s.th 0).pc) = .ok .idle := by decide
        rw [e] at hp
        subst h0
        exact Except.ok.inj hp
      · rw [run_other h0 e]; rfl)

/-- Two threads that add at the same time can lose an item: both calls report success, and the list has one of the items only. -/
theorem sblist_lost_item {m : Mem} {xs : List (List Byte)} (h : Holds m xs) (hroom : xs.length < m.capa) (hb : m.capa * m.isz < 2^64)
    {t u : Nat} (htu : t ≠ u) {x y : List Byte} {g k : Grow} {ps qs : List Op} (hx : x.length = m.isz) (hy : y.length = m.isz)
    (prog : Nat → List Op) (ht : prog t = .add x g :: ps) (hu : prog u = .add y k :: qs) :
    ∃ sched s, run (start m prog) sched = .ok s ∧ s.th t = ⟨ps, .idle, [.int 1]⟩ ∧ s.th u = ⟨qs, .idle, [.int 1]⟩ ∧
      Holds s.mem (xs ++ [y]) := by
  have hc := h.len
  have hz := h.z
  have hb1 : (xs.length + 1) * m.isz < 2^64 := Sblist.mul_lt_of hb (by omega)
  obtain ⟨B, b1, b2, _⟩ := slots_of_holds h
  have hle := Nat.mul_le_mul_right m.isz (show xs.length + 1 ≤ m.capa by omega)
  rw [Nat.add_mul, Nat.one_mul] at hle
  let f := (start m prog).th
  have e0 : start m prog = ⟨m, two f t u ⟨.add x g :: ps, .idle, []⟩ ⟨.add y k :: qs, .idle, []⟩⟩ := two_of_start ht hu
  have hs1 : szt (xs.length + 1) = xs.length + 1 := szt_of_lt (lt_of_mul hz hb1)
  let m1 : Mem := { m with count := xs.length + 1 }
  have r1 : Reach (start m prog) ⟨m, two f t u ⟨.add x g :: ps, .incs xs.length, []⟩ ⟨.add y k :: qs, .incs xs.length, []⟩⟩ := by
    rw [e0]
    refine (left_path htu ((add_inc (m := m) (by omega)).trans (.step ?_ .refl))).trans (right_path ((add_inc (m := m) (by omega)).trans (.step ?_ .refl)))
    · simp only [micro, hc]; rfl
    · simp only [micro, hc]; rfl
  have r2 : Reach (start m prog) ⟨m1, two f t u ⟨.add x g :: ps, .cpy m.items (xs.length * m.isz) 0, []⟩
      ⟨.add y k :: qs, .cpy m.items (xs.length * m.isz) 0, []⟩⟩ := by
    refine r1.trans ((left_path (pc' := .pos) (m' := m1) htu (.step ?_ .refl)).trans
      ((right_path (m' := m1) (pc' := .cpy m.items (xs.length * m.isz) 0) (.step (m1 := m1) (pc1 := .pos) ?_ ?_)).trans (left_path htu ?_)))
    · simp only [micro, hs1]; rfl
    · simp only [micro, hs1]; rfl
    · exact add_cpy (m := m1) rfl hz hb1
    · exact add_cpy (m := m1) rfl hz hb1
  obtain ⟨H, p1, p2, p3⟩ := cpy_path (o := .add x g) (m := m1) (q := m.items) (off := xs.length * m.isz) (B := B) b1 hx (by show _ + m.isz ≤ _; omega) 0
    m.isz (by show 0 + m.isz ≤ m.isz; omega)
  obtain ⟨H2, q1, q2, q3⟩ := cpy_path (o := .add y k) (m := { m1 with heap := H }) (q := m.items) (off := xs.length * m.isz) p3 hy
    (by simp [given, m1]; omega) 0 m.isz (by show 0 + m.isz ≤ m.isz; omega)
  rw [Nat.zero_add] at p1 q1
  have r3 := r2.trans ((left_path htu p1).trans ((left_done htu (cpy_done (m := { m1 with heap := H }))).trans
    ((right_path q1).trans (right_done (cpy_done (m := { m1 with heap := H2 }))))))
  obtain ⟨sched, hs⟩ := r3
  refine ⟨sched, _, hs, two_left htu _ _, two_right _ _, ?_⟩
  have hne : m.items ≠ 0 := by
    intro e
    rw [e, h.null] at b1; cases b1
    simp at b2; omega
  refine holds_of_slots (m := { m1 with heap := H2 }) (slots_append h b1 rfl rfl rfl hroom hy ?_) hz ?_ ?_ hroom ?_ ?_
  · show H2 m.items = _
    rw [q3]
    have hxt : (x.drop 0).take m.isz = x := by rw [List.drop_zero, ← hx, List.take_length]
    have hyt : (y.drop 0).take m.isz = y := by rw [List.drop_zero, ← hy, List.take_length]
    have hlt : (B.take (xs.length * m.isz)).length = xs.length * m.isz := by simp; omega
    simp only [given, hxt, hyt, Nat.add_zero]
    congr 2
    · rw [List.append_assoc, List.take_append_of_le_length (by omega), List.take_take, Nat.min_self]
    · rw [List.append_assoc, List.drop_append, List.drop_of_length_le (by omega), List.drop_append, List.drop_of_length_le (by omega), hlt, hx]
      simp
  · intro z' hz'
    rcases List.mem_append.1 hz' with h' | h'
    · exact h.rep.item z' h'
    · simp at h'; subst h'; exact hy
  · simp [m1]
  · show H2 0 = _
    rw [q2 0 (fun e => hne e.symm)]
    show H 0 = _
    rw [p2 0 (fun e => hne e.symm)]
    exact h.null
  · intro p hp
    have hpi : p ≠ m.items := by
      intro e
      have := h.fresh p hp
      rw [e, b1] at this; cases this
    show H2 p = _
    rw [q2 p hpi]
    show H p = _
    rw [p2 p hpi]
    exact h.fresh p hp

example : ∃ sched s, run (start shMem shAdds) sched = .ok s ∧ Holds s.mem [[7], [8], [5]] := by
  obtain ⟨sched, s, h1, _, _, h4⟩ := sblist_lost_item shMem_holds (by decide) (by decide) (t := 0) (u := 1) (by decide) rfl rfl shAdds rfl rfl
  exact ⟨sched, s, h1, h4⟩

/-- With one free place, two threads that add at the same time can write behind the block. -/
theorem sblist_behind_block {m : Mem} {xs : List (List Byte)} (h : Holds m xs) (hroom : xs.length + 1 = m.capa) (hb : (m.capa + 1) * m.isz < 2^64)
    {t u : Nat} (htu : t ≠ u) {x y : List Byte} {g k : Grow} {ps qs : List Op} (hx : x.length = m.isz)
    (prog : Nat → List Op) (ht : prog t = .add x g :: ps) (hu : prog u = .add y k :: qs) :
    ∃ sched, run (start m prog) sched = .error .oobWrite := by
  have hc := h.len
  have hz := h.z
  obtain ⟨B, b1, b2, _⟩ := slots_of_holds h
  let f := (start m prog).th
  have e0 : start m prog = ⟨m, two f t u ⟨.add x g :: ps, .idle, []⟩ ⟨.add y k :: qs, .idle, []⟩⟩ := two_of_start ht hu
  have hlt := lt_of_mul hz hb
  have hs1 : szt (xs.length + 1) = xs.length + 1 := szt_of_lt (by omega)
  have hs2 : szt (xs.length + 1 + 1) = xs.length + 1 + 1 := szt_of_lt (by omega)
  let m1 : Mem := { m with count := xs.length + 1 }
  let m2 : Mem := { m with count := xs.length + 1 + 1 }
  have r1 : Reach (start m prog) ⟨m2, two f t u ⟨.add x g :: ps, .cpy m.items ((xs.length + 1) * m.isz) 0, []⟩ ⟨.add y k :: qs, .pos, []⟩⟩ := by
    rw [e0]
    refine (right_path (add_inc (m := m) (by omega))).trans ((left_path (m' := m1) (pc' := .pos) htu ((add_inc (m := m) (by omega)).trans
      (.step (m1 := m) (pc1 := .incs xs.length) ?_ (.step ?_ .refl)))).trans
      ((right_path (m' := m2) (pc' := .pos) (.step (m1 := m1) (pc1 := .incs (xs.length + 1)) rfl (.step ?_ .refl))).trans (left_path htu ?_)))
    · simp only [micro, hc]; rfl
    · simp only [micro, hs1]; rfl
    · simp only [micro, hs2]; rfl
    · exact add_cpy (m := m2) rfl hz (by show (xs.length + 1 + 1) * m.isz < 2^64; rw [hroom]; exact hb)
  refine r1.error (t := t) (left_err htu ?_)
  simp only [micro]
  rw [if_pos (show 0 < m2.isz from hz)]
  unfold block
  rw [show m2.heap m.items = some B from b1]
  simp only [pure_eq_ok, ok_bindE]
  rw [rd_ok (show 0 < (given (.add x g)).length by show 0 < x.length; omega)]
  simp only [ok_bindE]
  unfold wr
  rw [if_neg (by rw [b2, hroom]; omega)]
  rfl

example : ∃ sched, run (start shMem shAdds) sched = .error .oobWrite :=
  sblist_behind_block shMem_holds rfl (by decide) (t := 0) (u := 1) (by decide) rfl shAdds rfl rfl

/-- If the list is full, two threads that add at the same time can hand a block to `realloc` that was freed. -/
theorem sblist_stale_block {m : Mem} {xs : List (List Byte)} (h : Holds m xs) (hfull : xs.length = m.capa) (hpos : 0 < m.capa)
    {t u : Nat} (htu : t ≠ u) {x y : List Byte} {f : Nat → Byte} {k : Grow} {ps qs : List Op}
    (prog : Nat → List Op) (ht : prog t = .add x (some (false, f)) :: ps) (hu : prog u = .add y k :: qs) :
    ∃ sched, run (start m prog) sched = .error .badFree := by
  have hc := h.len
  obtain ⟨B, b1, b2, _⟩ := slots_of_holds h
  have e0 := two_of_start (m := m) ht hu
  have hne : m.items ≠ 0 := items_ne h hpos
  obtain ⟨m', q, e1, e2, e3⟩ := regrow_move b1 hne f (h.live_lt b1) (szt ((m.capa + m.bi) * m.isz))
  have hcc : m.count = m.capa := by omega
  have r1 : Reach (start m prog) ⟨m', two (start m prog).th t u ⟨.add x (some (false, f)) :: ps, .capl q, []⟩ ⟨.add y k :: qs, .gcall m.items m.capa, []⟩⟩ := by
    refine Eq.subst (motive := fun s => Reach s _) e0.symm ?_
    refine (right_path (add_call (m := m) hcc)).trans (left_path htu ((add_call (m := m) hcc).trans (.step ?_ .refl)))
    simp only [micro, growOf, e1]; rfl
  refine r1.error (t := u) (right_err ?_)
  simp only [micro, regrow, block, e2]
  rfl

/-- The same list in a block for two. -/
def shFull : Mem := ⟨1, 2, 2, 2, 1, fun p => if p = 0 then some [] else if p = 1 then some [7, 8] else none, 2⟩

theorem shFull_holds : Holds shFull [[7], [8]] := by
  refine ⟨⟨by decide, rfl, by decide, by decide, [], rfl, rfl⟩, rfl, rfl, fun p hp => ?_⟩
  have : 2 ≤ p := hp
  simp [shFull, show p ≠ 0 by omega, show p ≠ 1 by omega]

example : ∃ sched, run (start shFull shAdds) sched = .error .badFree :=
  sblist_stale_block shFull_holds rfl (by decide) (t := 0) (u := 1) (by decide) shAdds rfl rfl

/-- If the list is full, a thread that looks at an item while another one adds can read a block that was freed. -/
theorem sblist_stale_item {m : Mem} {xs : List (List Byte)} (h : Holds m xs) (hfull : xs.length = m.capa)
    {t u : Nat} (htu : t ≠ u) {x : List Byte} {f : Nat → Byte} {i : Nat} (hi : i < xs.length) {ps qs : List Op}
    (prog : Nat → List Op) (ht : prog t = .add x (some (false, f)) :: ps) (hu : prog u = .look i :: qs) :
    ∃ sched, run (start m prog) sched = .error .oobRead := by
  have hc := h.len
  have hz := h.z
  obtain ⟨B, b1, b2, _⟩ := slots_of_holds h
  have e0 := two_of_start (m := m) ht hu
  have hne : m.items ≠ 0 := items_ne h (by omega)
  obtain ⟨m', q, e1, e2, e3⟩ := regrow_move b1 hne f (h.live_lt b1) (szt ((m.capa + m.bi) * m.isz))
  have hcc : m.count = m.capa := by omega
  have r1 : Reach (start m prog) ⟨m', two (start m prog).th t u ⟨.add x (some (false, f)) :: ps, .capl q, []⟩
      ⟨.look i :: qs, .lrd m.items (szt (i * m.isz)) [], []⟩⟩ := by
    refine Eq.subst (motive := fun s => Reach s _) e0.symm ?_
    refine (right_path (m' := m) (.step (m1 := m) (pc1 := .laddr i) ?_ (.step rfl .refl))).trans (left_path htu ((add_call (m := m) hcc).trans (.step ?_ .refl)))
    · simp only [micro]; rw [if_pos (by omega)]; rfl
    · simp only [micro, growOf, e1]; rfl
  refine r1.error (t := u) (right_err ?_)
  simp only [micro]
  rw [if_pos (show ([] : List Byte).length < m'.isz by rw [e3]; exact hz)]
  unfold block
  rw [e2]
  rfl

example : ∃ sched, run (start shFull fun t => if t = 0 then [.add [5] (some (false, fun _ => 0))] else if t = 1 then [.look 1] else []) sched = .error .oobRead :=
  sblist_stale_item shFull_holds rfl (t := 0) (u := 1) (by decide) (i := 1) (by decide) _ rfl rfl

/-- A thread that looks at an item while another one sets it can get any mixture of a front part of the new and the rest of the old value. -/
theorem sblist_half_item {m : Mem} {xs : List (List Byte)} (h : Holds m xs) (hb : m.capa * m.isz < 2^64)
    {t u : Nat} (htu : t ≠ u) {x : List Byte} (hx : x.length = m.isz) {i : Nat} (hi : i < xs.length) {ps qs : List Op}
    (prog : Nat → List Op) (ht : prog t = .set x i :: ps) (hu : prog u = .look i :: qs) (k : Nat) (hk : k ≤ m.isz) :
    ∃ sched s, run (start m prog) sched = .ok s ∧ s.th u = ⟨qs, .idle, [.item (some (x.take k ++ xs[i].drop k))]⟩ := by
  have hc := h.len
  have hr := h.room
  have e0 := two_of_start (m := m) ht hu
  have hmul : szt (i * m.isz) = i * m.isz := szt_of_lt (Sblist.mul_lt_of hb (by omega))
  refine half_item h (i := i) (by omega) e0 (o := .set x i) hx htu (m1 := m) rfl rfl rfl ?_ (by omega) hmul hk ?_
  · refine left_path htu (.step (m1 := m) (pc1 := .addr i) ?_ (.step ?_ .refl))
    · simp only [micro]; rw [if_neg (by omega)]; rfl
    · simp only [micro, hmul]; rfl
  · have h1 := slot_of_holds h hi
    exact h1

example : ∃ sched s, run (start ⟨2, 2, 1, 1, 1, fun p => if p = 0 then some [] else if p = 1 then some [7, 8] else none, 2⟩
      (fun t => if t = 0 then [.set [1, 2] 0] else if t = 1 then [.look 0] else [])) sched = .ok s ∧ (s.th 1).out = [.item (some [1, 8])] := by
  have h : Holds ⟨2, 2, 1, 1, 1, fun p => if p = 0 then some [] else if p = 1 then some [7, 8] else none, 2⟩ [[7, 8]] := by
    refine ⟨⟨by decide, rfl, by decide, by decide, [], rfl, rfl⟩, rfl, rfl, fun p hp => ?_⟩
    have : 2 ≤ p := hp
    simp [show p ≠ 0 by omega, show p ≠ 1 by omega]
  obtain ⟨sched, s, h1, h2⟩ := sblist_half_item h (by decide) (t := 0) (u := 1) (by decide) (x := [1, 2]) rfl (i := 0) (by decide)
    (fun t => if t = 0 then [.set [1, 2] 0] else if t = 1 then [.look 0] else []) rfl rfl 1 (by decide)
  exact ⟨sched, s, h1, by rw [h2]; rfl⟩

/-- A thread that looks at an item while another one adds it can get what was in the free place of the block before, or any mixture of a front part of the
    item and the rest of that. -/
theorem sblist_early_item {m : Mem} {xs : List (List Byte)} (h : Holds m xs) (hroom : xs.length < m.capa) (hb : m.capa * m.isz < 2^64)
    {t u : Nat} (htu : t ≠ u) {x : List Byte} (hx : x.length = m.isz) {g : Grow} {ps qs : List Op}
    (prog : Nat → List Op) (ht : prog t = .add x g :: ps) (hu : prog u = .look xs.length :: qs) (k : Nat) (hk : k ≤ m.isz) :
    ∃ sched s, run (start m prog) sched = .ok s ∧
      s.th u = ⟨qs, .idle, [.item (some (x.take k ++ (((view m).items.drop (xs.length * m.isz)).take m.isz).drop k))]⟩ := by
  have hc := h.len
  have hz := h.z
  have e0 := two_of_start (m := m) ht hu
  have hb1 : (xs.length + 1) * m.isz < 2^64 := Sblist.mul_lt_of hb (by omega)
  have hmul : szt (xs.length * m.isz) = xs.length * m.isz := szt_of_lt (Sblist.mul_lt_of hb (by omega))
  have hs1 : szt (xs.length + 1) = xs.length + 1 := szt_of_lt (lt_of_mul hz hb1)
  refine half_item h (i := xs.length) hroom e0 (o := .add x g) hx htu (m1 := { m with count := xs.length + 1 }) rfl rfl rfl ?_ (by dsimp only; omega) hmul hk rfl
  refine left_path htu ((add_inc (m := m) (by omega)).trans (.step (m1 := m) (pc1 := .incs xs.length) ?_ (.step (pc1 := .pos) ?_ (add_cpy ?_ hz hb1))))
  · simp only [micro, hc]; rfl
  · simp only [micro, hs1]; rfl
  · rfl

example : ∃ sched s, run (start shMem fun t => if t = 0 then [.add [5] none] else if t = 1 then [.look 2] else []) sched = .ok s ∧
    (s.th 1).out = [.item (some [99])] := by
  obtain ⟨sched, s, h1, h2⟩ := sblist_early_item shMem_holds (by decide) (by decide) (t := 0) (u := 1) (by decide) (x := [5]) rfl
    (fun t => if t = 0 then [.add [5] none] else if t = 1 then [.look 2] else []) rfl rfl 0 (by decide)
  exact ⟨sched, s, h1, by rw [h2]; rfl⟩

end Ulz.Props

import Verif.Proofs.Ssashare
import Verif.Props.Ssalloc
/-! C200: threads that use the pool of the single size allocator without a lock. -/
namespace Ulz.Props
open Ulz.Bitarray Ulz.Ssalloc Ulz.Ssalloc.Spec Ulz.Ssashare Ulz.Ssashare.Spec

private theorem reached_inv {M E : Nat} (hM : 0 < M) (hM' : M < 2 ^ 64) (hE : 0 < E) {ops : List Op} (h : ∀ o ∈ ops, OpOk E o) {p : Pool}
    {rs : List (Option Nat)} (hr : Ssalloc.run M E (ssa_init M) ops = .ok (p, rs)) : ∃ live, Inv M p live := by
  obtain ⟨p', live, rs', h1, h2, _⟩ := run_spec hM hE ops (inv_init M hM') h
  rw [hr] at h1
  obtain ⟨rfl, rfl⟩ := Prod.mk.inj (Except.ok.inj h1)
  exact ⟨live, h2⟩

private theorem runs_idle {M E : Nat} {p q : Pool} {live : List Nat} (h : Inv M p live) {o : Op} {r : Option Nat}
    (hs : Ssalloc.step M E p o = .ok (q, r)) : Runs M E o p .idle q r :=
  runs_of_rest _ (Nat.le_refl _) (show p.top < 2^64 by have := h.top; have := h.small; omega) (by rw [rest_idle h]; exact hs)

/-- C200. Whenever an allocation can succeed, two threads that allocate at the same time can both be given the block that one of them alone
    would be given; the pool is then as after one allocation. -/
theorem ssalloc_same_block (M E : Nat) (hM : 0 < M) (hM' : M < 2 ^ 64) (hE : 0 < E) (ops : List Op) (h : ∀ o ∈ ops, OpOk E o) (p : Pool)
    (rs : List (Option Nat)) (hr : Ssalloc.run M E (ssa_init M) ops = .ok (p, rs)) (a b : Nat) (hb : b ≤ E) (q : Pool) (x : Nat)
    (hx : ssa_alloc M E p a = .ok (q, some x)) (prog : Nat → List Op) (t u : Nat) (htu : t ≠ u) (cs ds : List Op)
    (ht : prog t = .alloc a :: cs) (hu : prog u = .alloc b :: ds) :
    ∃ sched s, Ssashare.run M E (start p prog) sched = .ok s ∧ s.th t = ⟨cs, .idle, [some x]⟩ ∧ s.th u = ⟨ds, .idle, [some x]⟩ ∧ s.pool = q := by
  obtain ⟨live, hi⟩ := reached_inv hM hM' hE h hr
  have ha : a ≤ E := by
    apply Classical.byContradiction
    intro hn
    unfold ssa_alloc at hx
    rw [if_pos (by omega)] at hx
    cases hx
  have hsame := fun p => alloc_same (M := M) ha hb p .idle
  obtain ⟨sched, hs⟩ := lockstep (runs_idle hi (o := .alloc a) hx) (hsame p) (fun _ => hsame) (s := start p prog) (t := t) (u := u)
    (os := cs) (os' := ds) (out := []) (out' := []) htu rfl (by simp only [start, ht]) (by simp only [start, hu])
  refine ⟨sched, _, hs, ?_, ?_, rfl⟩
  · simp only [upd_ne _ _ htu, upd_self]; rfl
  · simp only [upd_self]; rfl

/-- C200. If the next block is the last one of the pool, both threads can find room and then take one behind it: the code leaves the bitmap,
    or, where the bitmap has bits to spare, hands out the memory behind the pool, twice. -/
theorem ssalloc_behind_pool (M E : Nat) (hM : 0 < M) (hM' : M < 2 ^ 63) (hE : 0 < E) (ops : List Op) (h : ∀ o ∈ ops, OpOk E o) (p : Pool)
    (rs : List (Option Nat)) (hr : Ssalloc.run M E (ssa_init M) ops = .ok (p, rs)) (a b : Nat) (hb : b ≤ E) (q : Pool)
    (hx : ssa_alloc M E p a = .ok (q, some ((M - 1) * E))) (prog : Nat → List Op) (t u : Nat) (htu : t ≠ u) (cs ds : List Op)
    (ht : prog t = .alloc a :: cs) (hu : prog u = .alloc b :: ds) :
    ∃ sched, if M % 8 = 0 then Ssashare.run M E (start p prog) sched = .error .oobRead
      else ∃ s, Ssashare.run M E (start p prog) sched = .ok s ∧ s.th t = ⟨cs, .idle, [some (M * E)]⟩ ∧ s.th u = ⟨ds, .idle, [some (M * E)]⟩ := by
  obtain ⟨live, hi⟩ := reached_inv hM (by omega) hE h hr
  obtain ⟨q', live', r, g1, _, g3⟩ := alloc_spec (E := E) hM hi a
  rw [hx] at g1
  obtain ⟨rfl, rfl⟩ := Prod.mk.inj (Except.ok.inj g1)
  have hfacts : a ≤ E ∧ p.top + 1 = M := by
    generalize hy : (M - 1) * E = y at g3
    cases g3 with
    | alloc h1 h2 h3 h4 h5 =>
      rename_i k _
      have hk : k = M - 1 := Nat.eq_of_mul_eq_mul_right hE hy.symm
      refine ⟨h1, ?_⟩
      have htop := hi.top
      rw [hk] at h4 h5
      rcases h5 with ⟨n1, n2, n3⟩ | ⟨n1, _, _⟩
      · have hlt : p.top ≠ M := by
          intro e
          rcases hi.last with l | l
          · omega
          · rw [e] at l; exact n1 l
        rcases n3 with n3 | n3
        · omega
        · have := hi.lt _ n3; omega
      · exact absurd n1 h4
  obtain ⟨ha, htop⟩ := hfacts
  have hst : (start p prog) = ⟨p, two (start p prog).th t u ⟨.alloc a :: cs, .idle, []⟩ ⟨.alloc b :: ds, .idle, []⟩⟩ := by
    have := two_self (start p prog).th t u
    simp only [start, ht, hu] at this ⊢
    rw [this]
  have hbc := both_count (E := E) hM' htop ha hb (start p prog).th htu cs ds
  rw [hst]
  by_cases h8 : M % 8 = 0
  · simp only [if_pos h8]
    refine ⟨t :: u :: t :: t :: u :: u :: t :: t :: [], ?_⟩
    rw [hbc]
    have i1 : micro M E (.alloc a) { p with top := M + 1 } .pick = .ok ({ p with top := M + 1 }, .inl (.set M)) := by
      simp only [micro, pure_eq_ok]; rw [sztSub_of_le (by omega) (by omega), Nat.add_sub_cancel]
    have i2 : micro M E (.alloc a) { p with top := M + 1 } (.set M) = .error .oobRead := by
      have hlen := hi.len
      unfold BA_SIZE_REQUIRED at hlen
      rw [if_neg (by omega)] at hlen
      simp only [micro]
      unfold rd
      rw [List.getElem?_eq_none (by omega)]
      rfl
    rw [left_inl htu i1, left_err htu i2]
  · simp only [if_neg h8]
    have hlen := hi.len
    unfold BA_SIZE_REQUIRED at hlen
    rw [if_pos (by omega)] at hlen
    obtain ⟨v, v1, _, _⟩ := set_true_spec (u := p.used) (y := M) (by omega)
    have hrest : rest M E (.alloc a) { p with top := M + 1 } .pick = .ok (⟨v, M + 1, sztSub p.avail 1⟩, some (M * E)) := by
      simp only [rest, ssa_set]
      rw [sztSub_of_le (a := M + 1) (by omega) (by omega), Nat.add_sub_cancel, v1]
      rfl
    have hgood : Good { p with top := M + 1 } .pick := show M + 1 < 2^64 by omega
    obtain ⟨sched, hs⟩ := lockstep (o' := .alloc b) (runs_of_rest _ (Nat.le_refl _) hgood hrest) rfl (fun h => by cases h)
      (s := ⟨{ p with top := M + 1 }, two (start p prog).th t u ⟨.alloc a :: cs, .pick, []⟩ ⟨.alloc b :: ds, .pick, []⟩⟩) (t := t) (u := u)
      (os := cs) (os' := ds) (out := []) (out' := []) htu rfl (two_left htu) two_right
    refine ⟨t :: u :: t :: t :: u :: u :: sched, _, by rw [hbc]; exact hs, ?_, ?_⟩
    · simp only [upd_ne _ _ htu, upd_self]; rfl
    · simp only [upd_self]; rfl

/-- C200. Two threads that free two blocks of the same byte of the bitmap can leave the pool as if only one of the two had been freed. -/
theorem ssalloc_lost_free (M E : Nat) (hM : 0 < M) (hM' : M < 2 ^ 64) (hE : 0 < E) (ops : List Op) (h : ∀ o ∈ ops, OpOk E o) (p : Pool)
    (rs : List (Option Nat)) (hr : Ssalloc.run M E (ssa_init M) ops = .ok (p, rs)) (i j : Nat)
    (live : List Nat) (hl : Steps M E [] ops live rs) (hi : i ∈ live) (hj : j ∈ live) (hij : i / 8 = j / 8) (prog : Nat → List Op) (t u : Nat) (htu : t ≠ u) (cs ds : List Op)
    (ht : prog t = .free ((i * E : Nat) : Int) :: cs) (hu : prog u = .free ((j * E : Nat) : Int) :: ds) :
    ∃ sched s, Ssashare.run M E (start p prog) sched = .ok s ∧ s.th t = ⟨cs, .idle, [none]⟩ ∧ s.th u = ⟨ds, .idle, [none]⟩ ∧
      ssa_free M E p ((j * E : Nat) : Int) = .ok s.pool := by
  have hv : Inv M p live := by
    obtain ⟨p', live', rs', h1, h2, h3⟩ := run_spec hM hE ops (inv_init M hM') h
    rw [hr] at h1
    obtain ⟨rfl, rfl⟩ := Prod.mk.inj (Except.ok.inj h1)
    rw [steps_det hE hl h3]
    exact h2
  obtain ⟨hi, iM, ilen⟩ := get_live hv hi
  obtain ⟨hj, jM, jlen⟩ := get_live hv hj
  have hst : (start p prog) = ⟨p, two (start p prog).th t u ⟨.free ((i * E : Nat) : Int) :: cs, .idle, []⟩ ⟨.free ((j * E : Nat) : Int) :: ds, .idle, []⟩⟩ := by
    have := two_self (start p prog).th t u
    simp only [start, ht, hu] at this ⊢
    rw [this]
  obtain ⟨q, live', f1, _, _⟩ := free_spec (d := ((j * E : Nat) : Int)) hE hv (.inl (Int.natCast_nonneg _))
  have hrest : rest M E (.free ((j * E : Nat) : Int)) p .idle = .ok (q, none) := by
    rw [rest_idle hv]
    simp only [Ssalloc.step, f1, ok_bindE, pure_eq_ok]
  simp only [rest, free_idle (M := M) hE jM hj, ok_bindE] at hrest
  obtain ⟨v, v1, _⟩ := both_clear (M := M) hE iM jM hi hj ilen hij (start p prog).th htu cs ds []
  rw [v1] at hrest
  simp only [ok_bindE] at hrest
  have hg : rest M E (.free ((i * E : Nat) : Int)) { p with used := v } .fgive = .ok (q, none) := hrest
  have hgood : Good { p with used := v } .fgive := show p.top < 2^64 by have := hv.top; omega
  obtain ⟨sched, hs⟩ := lockstep (o' := .free ((j * E : Nat) : Int)) (runs_of_rest _ (Nat.le_refl _) hgood hg) rfl (fun h => by cases h)
      (s := ⟨{ p with used := v }, two (start p prog).th t u ⟨.free ((i * E : Nat) : Int) :: cs, .fgive, []⟩ ⟨.free ((j * E : Nat) : Int) :: ds, .fgive, []⟩⟩)
      (t := t) (u := u) (os := cs) (os' := ds) (out := []) (out' := []) htu rfl (two_left htu) two_right
  obtain ⟨v', w1, w2⟩ := both_clear (M := M) hE iM jM hi hj ilen hij (start p prog).th htu cs ds sched
  rw [v1] at w1
  have w1 := Except.ok.inj w1
  subst w1
  rw [hst]
  refine ⟨t :: t :: u :: u :: t :: u :: sched, _, by rw [w2]; exact hs, ?_, ?_, f1⟩
  · simp only [upd_ne _ _ htu, upd_self]; rfl
  · simp only [upd_self]; rfl

/-- C200. If the calls do not overlap (a lock around every call does that), the threads together make a history of C70: each gets what it says. -/
theorem ssalloc_serial (M E : Nat) (hM : 0 < M) (hM' : M < 2 ^ 64) (hE : 0 < E) (ops : List Op) (h : ∀ o ∈ ops, OpOk E o) (p : Pool)
    (rs : List (Option Nat)) (hr : Ssalloc.run M E (ssa_init M) ops = .ok (p, rs)) (prog : Nat → List Op) (hp : ∀ t, ∀ o ∈ prog t, OpOk E o)
    (sched : List Nat) (hn : NoOverlap M E (start p prog) sched) :
    ∃ s, Ssashare.run M E (start p prog) sched = .ok s ∧ Serial M E p prog s := by
  obtain ⟨live, hi⟩ := reached_inv hM hM' hE h hr
  obtain ⟨s, hist, q, l, h1, h2⟩ := sinv_run hM hE hp sched (sinv_start hi prog) hn
  exact ⟨s, h1, h2.serial⟩

/-- C200. That is so for every order of the steps if all threads but one make only calls that do not look at the pool. -/
theorem ssalloc_one_thread (M E : Nat) (hM : 0 < M) (hM' : M < 2 ^ 64) (hE : 0 < E) (ops : List Op) (h : ∀ o ∈ ops, OpOk E o) (p : Pool)
    (rs : List (Option Nat)) (hr : Ssalloc.run M E (ssa_init M) ops = .ok (p, rs)) (prog : Nat → List Op) (hp : ∀ t, ∀ o ∈ prog t, OpOk E o)
    (t0 : Nat) (h0 : ∀ u, u ≠ t0 → ∀ o ∈ prog u, Local M E o) (sched : List Nat) :
    ∃ s, Ssashare.run M E (start p prog) sched = .ok s ∧ Serial M E p prog s :=
  ssalloc_serial M E hM hM' hE ops h p rs hr prog hp sched (one_noOverlap t0 sched fun u hu => ⟨rfl, h0 u hu⟩)

/-- C200. Threads that only allocate, from a fresh pool, get different blocks of the pool for every order of their steps exactly if no two of them
    make allocations that fit a block. -/
theorem ssalloc_threads_iff (M E : Nat) (hM : 0 < M) (hM' : M < 2 ^ 64) (hE : 0 < E) (prog : Nat → List Op)
    (ha : ∀ t, ∀ o ∈ prog t, ∃ a, o = .alloc a) :
    (∀ sched, ∃ s, Ssashare.run M E (start (ssa_init M) prog) sched = .ok s ∧ Sound M E s) ↔
      ∀ t u a b, t ≠ u → .alloc a ∈ prog t → .alloc b ∈ prog u → a > E ∨ b > E := by
  constructor
  · intro H t u a b htu hat hbu
    apply Classical.byContradiction
    intro hn
    have first : ∀ (l : List Op), (∀ o ∈ l, ∃ a, o = .alloc a) → ∀ a, .alloc a ∈ l → a ≤ E →
        ∃ pre a' cs, l = pre ++ .alloc a' :: cs ∧ a' ≤ E ∧ ∀ o ∈ pre, Local M E o := by
      intro l
      induction l with
      | nil => intro _ a hm; cases hm
      | cons o l ih =>
        intro hall a hm hle
        obtain ⟨c, rfl⟩ := hall o List.mem_cons_self
        by_cases hc : c ≤ E
        · exact ⟨[], c, l, rfl, hc, by simp⟩
        · have : Op.alloc a ∈ l := by
            rcases List.mem_cons.1 hm with e | hm
            · cases e; exact absurd hle hc
            · exact hm
          obtain ⟨pre, a', cs, e1, e2, e3⟩ := ih (fun o ho => hall o (List.mem_cons_of_mem _ ho)) a this hle
          refine ⟨.alloc c :: pre, a', cs, by rw [e1]; rfl, e2, fun o ho => ?_⟩
          rcases List.mem_cons.1 ho with rfl | ho
          · show c > E; omega
          · exact e3 o ho
    obtain ⟨pre, a', cs, e1, e2, e3⟩ := first (prog t) (ha t) a hat (by omega)
    obtain ⟨pre', b', ds, f1, f2, f3⟩ := first (prog u) (ha u) b hbu (by omega)
    obtain ⟨q, live, r, g1, _, g3⟩ := alloc_spec (E := E) hM (inv_init M hM') a'
    have hr : ∃ x, r = some x := by
      cases g3 with
      | alloc => exact ⟨_, rfl⟩
      | full _ h2 => exact absurd h2.1 (by simp)
      | big h1 => omega
    obtain ⟨x, rfl⟩ := hr
    obtain ⟨s1, k1⟩ := skip pre (s := start (ssa_init M) prog) (t := t) (os := .alloc a' :: cs) (out := []) e3 (fun o ho p => local_micro ho p)
      (by simp only [start, e1])
    obtain ⟨s2, k2⟩ := skip pre' (s := ⟨ssa_init M, upd (start (ssa_init M) prog).th t ⟨.alloc a' :: cs, .idle, [] ++ List.replicate pre.length none⟩⟩)
      (t := u) (os := .alloc b' :: ds) (out := []) f3 (fun o ho p => local_micro ho p) (by simp only [upd_ne _ _ (Ne.symm htu), start, f1])
    have hsame := fun p => alloc_same (M := M) e2 f2 p .idle
    obtain ⟨s3, k3⟩ := lockstep (runs_idle (inv_init M hM') (o := .alloc a') g1) (hsame _) (fun _ => hsame)
      (s := ⟨ssa_init M, upd (upd (start (ssa_init M) prog).th t ⟨.alloc a' :: cs, .idle, [] ++ List.replicate pre.length none⟩) u
        ⟨.alloc b' :: ds, .idle, [] ++ List.replicate pre'.length none⟩⟩) (t := t) (u := u)
      (os := cs) (os' := ds) (out := [] ++ List.replicate pre.length none) (out' := [] ++ List.replicate pre'.length none) htu rfl
      (by simp only [upd_ne _ _ htu, upd_self]) (by simp only [upd_self])
    obtain ⟨s, h1, h2⟩ := H (s1 ++ (s2 ++ s3))
    have k1' : Ssashare.run M E (start (ssa_init M) prog) s1 = .ok ⟨ssa_init M, _⟩ := k1
    rw [Ssashare.run_append, k1'] at h1
    simp only [ok_bindE] at h1
    rw [Ssashare.run_append, k2] at h1
    simp only [ok_bindE] at h1
    rw [k3] at h1
    have h1 := Except.ok.inj h1
    subst h1
    refine (h2 t).2.2 u (Ne.symm htu) x ?_ ?_
    · simp only [upd_ne _ _ htu, upd_self]; simp
    · simp only [upd_self]; simp
  · intro H sched
    have : ∃ t0, ∀ u, u ≠ t0 → ∀ o ∈ prog u, Local M E o := by
      by_cases hex : ∃ t a, a ≤ E ∧ Op.alloc a ∈ prog t
      · obtain ⟨t, a, hle, hm⟩ := hex
        refine ⟨t, fun u hu o ho => ?_⟩
        obtain ⟨b, rfl⟩ := ha u o ho
        rcases H t u a b (Ne.symm hu) hm ho with h | h
        · omega
        · exact h
      · refine ⟨0, fun u hu o ho => ?_⟩
        obtain ⟨b, rfl⟩ := ha u o ho
        show b > E
        apply Classical.byContradiction
        intro hb
        exact hex ⟨u, b, by omega, ho⟩
    obtain ⟨t0, h0⟩ := this
    obtain ⟨s, h1, h2⟩ := ssalloc_one_thread M E hM hM' hE [] (by simp) (ssa_init M) [] rfl prog
      (fun t o ho => by obtain ⟨a, rfl⟩ := ha t o ho; trivial) t0 h0 sched
    exact ⟨s, h1, sound_of_serial hM hM' hE ha h2⟩

/-- Two threads allocate from a fresh pool of 8 blocks of 16 bytes. One after the other they get the first two; in step, both get the first. With
    seven blocks live, each finds room, then thread 0 looks for the bit behind the bitmap; in a pool of 10 blocks with nine live, both get
    the memory behind it. -/
example :
    let prog (t : Nat) : List Op := if t < 2 then [.alloc 16] else []
    let outs (M : Nat) (p : Pool) (sched : List Nat) : C _ := match Ssashare.run M 16 (start p prog) sched with
      | .ok s => .ok ((s.th 0).out, (s.th 1).out) | .error e => .error e
    outs 8 (ssa_init 8) [0, 0, 0, 0, 0, 0, 0, 0, 1, 1, 1, 1, 1, 1, 1, 1] = .ok ([some 0], [some 16]) ∧
    outs 8 (ssa_init 8) [0, 1, 0, 1, 0, 1, 0, 1, 0, 1, 0, 1, 0, 1, 0, 1] = .ok ([some 0], [some 0]) ∧
    (Ssalloc.run 8 16 (ssa_init 8) (List.replicate 7 (.alloc 1))).toOption.map (·.1) = some ⟨[127], 7, 1⟩ ∧
    outs 8 ⟨[127], 7, 1⟩ [0, 1, 0, 0, 1, 1, 0, 0] = .error .oobRead ∧
    (Ssalloc.run 10 16 (ssa_init 10) (List.replicate 9 (.alloc 1))).toOption.map (·.1) = some ⟨[255, 1], 9, 1⟩ ∧
    outs 10 ⟨[255, 1], 9, 1⟩ [0, 1, 0, 0, 1, 1, 0, 1, 0, 1, 0, 1, 0, 1, 0, 1] = .ok ([some 160], [some 160]) := by
  decide +kernel

/-- Three blocks are live, two threads free the first and the second: the first stays marked. -/
example :
    let prog (t : Nat) : List Op := if t = 0 then [.free 0] else if t = 1 then [.free 16] else []
    (Ssalloc.run 8 16 (ssa_init 8) (List.replicate 3 (.alloc 1))).toOption.map (·.1) = some ⟨[7], 3, 5⟩ ∧
    (match Ssashare.run 8 16 (start ⟨[7], 3, 5⟩ prog) [0, 0, 1, 1, 0, 1, 0, 1, 0, 1, 0, 1, 0, 1, 0, 1] with
      | .ok s => .ok ((s.th 0), (s.th 1), s.pool) | .error e => .error e : C _) =
      .ok (⟨[], .idle, [none]⟩, ⟨[], .idle, [none]⟩, ⟨[5], 3, 6⟩) := by
  decide +kernel

/-- The hypotheses are met. -/
example := ssalloc_same_block 8 16 (by decide) (by decide) (by decide) [.alloc 1, .free 0, .alloc 3] (by simp [OpOk, FreeOk]) ⟨[1], 1, 7⟩ [some 0, none, some 0]
  (by decide +kernel) 5 16 (by decide) ⟨[3], 2, 6⟩ 16 (by decide +kernel) (fun _ => [.alloc 5]) 0 1 (by decide) [] [] rfl
example := ssalloc_behind_pool 8 16 (by decide) (by decide) (by decide) (List.replicate 7 (.alloc 1)) (by simp [OpOk]) ⟨[127], 7, 1⟩
  ((List.range 7).map fun i => some (16 * i)) (by decide +kernel) 5 5 (by decide) ⟨[255], 8, 0⟩ (by decide +kernel) (fun _ => [.alloc 5]) 0 1 (by decide) [] [] rfl rfl
example := ssalloc_serial 8 16 (by decide) (by decide) (by decide) [] (by simp) (ssa_init 8) [] rfl
  (fun t => if t < 2 then [.alloc 5, .free 16, .free 0] else []) (by intro t o ho; split at ho <;> simp at ho; rcases ho with rfl | rfl | rfl <;> simp [OpOk, FreeOk])
  [0, 0] ⟨.inl fun _ _ => rfl, fun s' hs' => by
    cases hs'
    exact ⟨.inl fun u hu => by simp only [Ssashare.upd_ne _ _ hu]; rfl, fun _ _ => trivial⟩⟩
example := (ssalloc_threads_iff 8 16 (by decide) (by decide) (by decide) (fun t => if t = 0 then [.alloc 5, .alloc 6] else [.alloc 17])
  (by intro t o ho; split at ho <;> simp at ho <;> rcases ho with rfl | rfl <;> exact ⟨_, rfl⟩)).2
  (by intro t u a b htu h1 h2; by_cases ht : t = 0 <;> by_cases hu : u = 0 <;> simp_all)

end Ulz.Props

import Verif.Proofs.Proc
/-! Properties C79, C97 and C98: descriptors of process_open, process_close and daemonize. -/
namespace Ulz.Props
open Ulz.Proc Ulz.Proc.Spec

/-! ### C79 -/

/-- C79: if process_open fails, wherever that is, all descriptors are as before, except that descriptor 0 stays open if
    it was not and a pipe got it. -/
theorem process_open_fails (ans : Answers) (t : Table) (hl : Legal ans t) (hi : ans.init = true) (r : Result) (h : process_open ans t = .ok r) (hr : r.success = none) :
    (∀ f, f ≠ 0 → r.table f = t f) ∧ (r.table 0 = t 0 ∨ (t 0 = none ∧ r.table 0 ≠ none ∧ ∃ i, i < 3 ∧ Uses ans i 0)) := by
  have key := closeAll_pipes ans t hl
  have key0 : (∀ f, f ≠ 0 → closeAll [(0, 0), (0, 0), (0, 0)] t f = t f) ∧ (closeAll [(0, 0), (0, 0), (0, 0)] t 0 = t 0 ∨ (t 0 = none ∧ closeAll [(0, 0), (0, 0), (0, 0)] t 0 ≠ none ∧ ∃ i, i < 3 ∧ Uses ans i 0)) :=
    ⟨fun _ _ => rfl, Or.inl rfl⟩
  unfold process_open at h
  simp only [hi, Bool.not_true, Bool.false_eq_true, if_false] at h
  split at h
  · injection h with h; subst h; exact key0
  · revert key h
    generalize pipeLoop ans [0, 1, 2] t [(0, 0), (0, 0), (0, 0)] = x
    obtain ⟨t', pipes, b⟩ := x
    intro key h
    cases b with
    | false => injection h with h; subst h; exact key
    | true =>
      simp only at h
      split at h
      · injection h with h; subst h; exact key
      · split at h
        · injection h with h; subst h; exact key
        · split at h
          · injection h with h; subst h; exact key
          · injection h with h; subst h; simp at hr

/-- C79: so nothing leaks if descriptor 0 is open. -/
theorem process_open_no_leak (ans : Answers) (t : Table) (hl : Legal ans t) (hi : ans.init = true) (r : Result) (h : process_open ans t = .ok r) (hr : r.success = none)
    (h0 : t 0 ≠ none) : r.table = t := by
  obtain ⟨h1, h2⟩ := process_open_fails ans t hl hi r h hr
  funext f
  by_cases e : f = 0
  · subst e
    rcases h2 with h2 | ⟨h2, _⟩
    · exact h2
    · exact absurd h2 h0
  · exact h1 f e

/-- C79: success leaves open the three ends for the caller, besides what was open; C97: in the child the other ends are its standard descriptors, and nothing else of
    the pipes is open. -/
theorem process_open_succeeds (ans : Answers) (t : Table) (hl : Legal ans t) (hw : Willing ans) (r0 w0 r1 w1 r2 w2 : Nat)
    (h0 : ans.pipe 0 = some (r0, w0)) (h1 : ans.pipe 1 = some (r1, w1)) (h2 : ans.pipe 2 = some (r2, w2)) (hstd : t 0 ≠ none ∧ t 1 ≠ none ∧ t 2 ≠ none) :
    ∃ r p child, process_open ans t = .ok r ∧ r.success = some (p, child) ∧ p.fds = [w0, r1, r2] ∧
      (r.table w0 = some (.writeEnd 0) ∧ r.table r1 = some (.readEnd 1) ∧ r.table r2 = some (.readEnd 2) ∧ ∀ f, f ∉ [w0, r1, r2] → r.table f = t f) ∧
      (child 0 = some (.readEnd 0) ∧ child 1 = some (.writeEnd 1) ∧ child 2 = some (.writeEnd 2) ∧ ∀ f, f ∉ [0, 1, 2] → child f = t f) ∧
      process_close r.table p = t := by
  obtain ⟨hi, ha, hs⟩ := hw
  have nstd : ∀ f, t f = none → f ≠ 0 ∧ f ≠ 1 ∧ f ≠ 2 := by
    intro f hf
    refine ⟨?_, ?_, ?_⟩ <;> (rintro rfl; simp [hf] at hstd)
  obtain ⟨a1, a2, a3⟩ := hl.fresh 0 r0 w0 h0
  obtain ⟨b1, b2, b3⟩ := hl.fresh 1 r1 w1 h1
  obtain ⟨c1, c2, c3⟩ := hl.fresh 2 r2 w2 h2
  obtain ⟨d1, d2, d3, d4⟩ := hl.apart 0 1 _ _ _ _ (by decide) h0 h1
  obtain ⟨e1, e2, e3, e4⟩ := hl.apart 0 2 _ _ _ _ (by decide) h0 h2
  obtain ⟨f1, f2, f3, f4⟩ := hl.apart 1 2 _ _ _ _ (by decide) h1 h2
  obtain ⟨g1, g2, g3⟩ := nstd r0 a1
  obtain ⟨g4, g5, g6⟩ := nstd w0 a2
  obtain ⟨g7, g8, g9⟩ := nstd r1 b1
  obtain ⟨i1, i2, i3⟩ := nstd w1 b2
  obtain ⟨i4, i5, i6⟩ := nstd r2 c1
  obtain ⟨i7, i8, i9⟩ := nstd w2 c2
  have x0 := ha 0 (by decide)
  have x1 := ha 1 (by decide)
  have x2 := ha 2 (by decide)
  have x3 := ha 3 (by decide)
  have x4 := ha 4 (by decide)
  have x5 := ha 5 (by decide)
  have x6 := ha 6 (by decide)
  have x7 := ha 7 (by decide)
  have x8 := ha 8 (by decide)
  have x9 := ha 9 (by decide)
  have x10 := ha 10 (by decide)
  have x11 := ha 11 (by decide)
  unfold process_open
  simp only [hi, hs, add, x0, x1, x2, x3, x4, x5, x6, x7, x8, x9, x10, x11, pipeLoop, h0, h1, h2, if_true, Bool.not_true, Bool.false_eq_true, if_false, List.set, childEnd, parentEnd,
    List.flatMap_cons, List.flatMap_nil, List.getD_cons_zero, List.getD_cons_succ, List.cons_append, List.nil_append]
  generalize hT : (((((t.set r0 (some (.readEnd 0))).set w0 (some (.writeEnd 0))).set r1 (some (.readEnd 1))).set w1 (some (.writeEnd 1))).set r2 (some (.readEnd 2))).set w2 (some (.writeEnd 2)) = T
  have T0 : T r0 = some (.readEnd 0) := by simp only [← hT, set_apply, a3, d1, d2, e1, e2, if_false, if_true]
  have T0' : T w0 = some (.writeEnd 0) := by simp only [← hT, set_apply, d3, d4, e3, e4, if_false, if_true]
  have T1 : T r1 = some (.readEnd 1) := by simp only [← hT, set_apply, b3, f1, f2, if_false, if_true]
  have T1' : T w1 = some (.writeEnd 1) := by simp only [← hT, set_apply, f3, f4, if_false, if_true]
  have T2 : T r2 = some (.readEnd 2) := by simp only [← hT, set_apply, c3, if_false, if_true]
  have T2' : T w2 = some (.writeEnd 2) := by simp only [← hT, set_apply, if_true]
  have Tn : ∀ f, f ≠ r0 → f ≠ w0 → f ≠ r1 → f ≠ w1 → f ≠ r2 → f ≠ w2 → T f = t f := by
    intro f k1 k2 k3 k4 k5 k6
    simp only [← hT, set_apply, k1, k2, k3, k4, k5, k6, if_false]
  obtain ⟨child, hc, y0, y1, y2, y3⟩ := perform_spec T r0 w0 r1 w1 r2 w2 _ _ _ T0 T1' T2' (by
    intro f hf
    simp only [List.mem_cons, List.not_mem_nil, or_false] at hf
    rcases hf with rfl | rfl | rfl | rfl | rfl | rfl <;> exact nstd _ ‹_›)
  simp only [show ((1 : Nat) = 0) = False by simp, show ((2 : Nat) = 0) = False by simp, if_false]
  rw [hc]
  have R : ∀ f, f ∉ [w0, r1, r2] → close (close (close T r0) w1) w2 f = t f := by
    intro f hf
    simp only [List.mem_cons, List.not_mem_nil, or_false, not_or] at hf
    obtain ⟨k1, k2, k3⟩ := hf
    simp only [close_apply]
    by_cases m1 : f = w2
    · rw [if_pos m1, m1, c2]
    by_cases m2 : f = w1
    · rw [if_neg m1, if_pos m2, m2, b2]
    by_cases m3 : f = r0
    · rw [if_neg m1, if_neg m2, if_pos m3, m3, a1]
    rw [if_neg m1, if_neg m2, if_neg m3]
    exact Tn f m3 k1 k2 m2 k3 m1
  have R0 : close (close (close T r0) w1) w2 w0 = some (.writeEnd 0) := by
    simp only [close_apply, e4, d4, Ne.symm a3, if_false, T0']
  have R1 : close (close (close T r0) w1) w2 r1 = some (.readEnd 1) := by
    simp only [close_apply, f2, b3, Ne.symm d1, if_false, T1]
  have R2 : close (close (close T r0) w1) w2 r2 = some (.readEnd 2) := by
    simp only [close_apply, c3, Ne.symm f3, Ne.symm e1, if_false, T2]
  refine ⟨_, _, child, rfl, rfl, rfl, ⟨R0, R1, R2, R⟩, ⟨y0, y1, y2, ?_⟩, ?_⟩
  · intro f hf
    simp only [List.mem_cons, List.not_mem_nil, or_false, not_or] at hf
    rw [y3 f hf.1 hf.2.1 hf.2.2]
    split
    · rename_i h
      simp only [List.mem_cons, List.not_mem_nil, or_false] at h
      rcases h with rfl | rfl | rfl | rfl | rfl | rfl <;> exact Eq.symm ‹_›
    · rename_i h
      simp only [List.mem_cons, List.not_mem_nil, or_false, not_or] at h
      exact Tn f h.1 h.2.1 h.2.2.1 h.2.2.2.1 h.2.2.2.2.1 h.2.2.2.2.2
  · funext f
    simp only [process_close, List.foldl, close_apply]
    by_cases m1 : f = r2
    · rw [if_pos m1, m1, c1]
    by_cases m2 : f = r1
    · rw [if_neg m1, if_pos m2, m2, b1]
    by_cases m3 : f = w0
    · rw [if_neg m1, if_neg m2, if_pos m3, m3, a2]
    rw [if_neg m1, if_neg m2, if_neg m3]
    exact R f (by simp [m1, m2, m3])

/-- Descriptors 0, 1 and 2 are open, the pipes get 3 to 8. -/
example : ∃ r p child, process_open ⟨true, fun _ => true, fun i => some (3 + 2 * i, 4 + 2 * i), true⟩ (fun f => if f < 3 then some (.other f) else none) = .ok r ∧
    r.success = some (p, child) ∧ p.fds = [4, 5, 7] ∧ child 0 = some (.readEnd 0) := by
  obtain ⟨r, p, child, h1, h2, h3, _, h4, _⟩ := process_open_succeeds ⟨true, fun _ => true, fun i => some (3 + 2 * i, 4 + 2 * i), true⟩ (fun f => if f < 3 then some (.other f) else none)
    ⟨by
      intro i r w h
      simp only [Option.some.injEq, Prod.mk.injEq] at h
      obtain ⟨rfl, rfl⟩ := h
      exact ⟨if_neg (by omega), if_neg (by omega), by omega⟩, by
      intro i j r w r' w' hij h h'
      simp only [Option.some.injEq, Prod.mk.injEq] at h h'
      omega⟩ ⟨rfl, fun _ _ => rfl, rfl⟩ 3 4 5 6 7 8 rfl rfl rfl (by simp)
  exact ⟨r, p, child, h1, h2, h3, h4.1⟩

/-- The third pipe cannot be made. -/
example : ∃ r, process_open ⟨true, fun _ => true, fun i => if i < 2 then some (3 + 2 * i, 4 + 2 * i) else none, true⟩ (fun f => if f < 3 then some (.other f) else none) = .ok r ∧ r.success = none :=
  ⟨_, rfl, rfl⟩

/-- C79: if descriptor 0 is closed, the first pipe has it (the lowest one free), and however willing the system is, process_open fails and leaves descriptor 0 open. -/
theorem process_open_stdin_closed (ans : Answers) (t : Table) (hl : Legal ans t) (hi : ans.init = true) (w0 : Nat) (h0 : ans.pipe 0 = some (0, w0)) (ha : ∀ k, k < 3 → ans.action k = true) :
    ∃ r, process_open ans t = .ok r ∧ r.success = none ∧ r.table 0 = some (.readEnd 0) ∧ ∀ f, f ≠ 0 → r.table f = t f := by
  obtain ⟨p1, p2⟩ := pipeLoop_stdin ans t hl w0 h0
  have key := closeAll_pipes ans t hl
  unfold process_open
  have hadd : add ans 0 [.close 0, .close 1, .close 2] [] = ([.close 0, .close 1, .close 2], true) := by
    simp only [add, ha 0 (by decide), ha 1 (by decide), ha 2 (by decide), if_true, List.nil_append, List.cons_append]
  simp only [hi, hadd, Bool.not_true, Bool.false_eq_true, if_false]
  revert key p1 p2
  generalize pipeLoop ans [0, 1, 2] t [(0, 0), (0, 0), (0, 0)] = x
  obtain ⟨t', pipes, b⟩ := x
  simp only
  intro p1 p2 ⟨key, _⟩
  have good : closeAll pipes t' 0 = some (.readEnd 0) := by rw [(closeAll_apply pipes t' 0).2 (Or.inl rfl), p1]
  have fin : ∃ r, fail pipes t' = .ok r ∧ r.success = none ∧ r.table 0 = some (.readEnd 0) ∧ ∀ f, f ≠ 0 → r.table f = t f :=
    ⟨_, rfl, rfl, good, key⟩
  cases b with
  | false => exact fin
  | true =>
    simp only [p2]
    split
    · exact fin
    · rename_i fa hfa
      have e1 := add_eq ans _ _ _ _ hfa
      split
      · exact fin
      · rename_i fa' hfa'
        have e2 := add_eq ans _ _ _ _ hfa'
        have : (if ans.spawn = true then perform t' fa' else none) = none := by
          rw [e2, e1]
          simp only [List.cons_append, List.nil_append, perform, close_apply]
          simp
        rw [this]
        exact fin

/-- Descriptors 1 and 2 are open, the pipes get 0 and 3 to 7. -/
example : ∃ r, process_open ⟨true, fun _ => true, fun i => if i = 0 then some (0, 3) else some (2 + 2 * i, 3 + 2 * i), true⟩ (fun f => if f = 1 ∨ f = 2 then some (.other f) else none) = .ok r ∧
    r.success = none ∧ r.table 0 = some (.readEnd 0) := by
  obtain ⟨r, h1, h2, h3, _⟩ := process_open_stdin_closed ⟨true, fun _ => true, fun i => if i = 0 then some (0, 3) else some (2 + 2 * i, 3 + 2 * i), true⟩
    (fun f => if f = 1 ∨ f = 2 then some (.other f) else none)
    ⟨by
      intro i r w h
      simp only at h
      by_cases e : i = 0
      · rw [if_pos e] at h
        simp only [Option.some.injEq, Prod.mk.injEq] at h
        obtain ⟨rfl, rfl⟩ := h
        exact ⟨rfl, rfl, by decide⟩
      · rw [if_neg e] at h
        simp only [Option.some.injEq, Prod.mk.injEq] at h
        obtain ⟨rfl, rfl⟩ := h
        exact ⟨if_neg (by omega), if_neg (by omega), by omega⟩, by
      intro i j r w r' w' hij h h'
      simp only at h h'
      by_cases e : i = 0 <;> by_cases e' : j = 0 <;> simp only [e, e', if_true, if_false, Option.some.injEq, Prod.mk.injEq] at h h' <;> omega⟩ rfl 3 rfl (fun _ _ => rfl)
  exact ⟨r, h1, h2, h3⟩

/-- C79: destroying the actions after they could not be initialised is undefined. -/
theorem process_open_init_fails (ans : Answers) (t : Table) (hi : ans.init = false) : process_open ans t = .error .badFree := by
  unfold process_open
  rw [hi]; rfl

/-! ### C98 -/

/-- C98: in the daemon, with `n` descriptors allowed, exactly 0, 1 and 2 (as far as allowed) are open among 0 to `n`, on /dev/null; descriptors above `n` are
    as before. -/
theorem daemonize_correct (n : Nat) (t : Table) : ∃ t', daemonize 0 n true t = .continues t' ∧
    ∀ f, t' f = if f < 3 ∧ f < n then some .devnull else if f ≤ n then none else t f := by
  unfold daemonize
  rw [if_neg (by omega), if_neg (by omega)]
  simp only [if_true]
  refine ⟨_, rfl, ?_⟩
  have a0 : ∀ f, closeDown t n f = if f < 0 ∧ f < n then some .devnull else if f ≤ n then none else t f := by
    intro f
    rw [closeDown_apply, if_neg (show ¬ (f < 0 ∧ f < n) by omega)]
  have a1 := acquire_spec t n 0 .devnull _ a0
  rcases Nat.eq_zero_or_pos n with hn | hn
  · subst hn
    intro f
    rw [show acquire 0 (closeDown t 0) .devnull = (closeDown t 0, none) from rfl]
    simp only [dup]
    rw [closeDown_apply, if_neg (show ¬ (f < 3 ∧ f < 0) by omega)]
  · have e : (acquire n (closeDown t n) .devnull).2 = some 0 := by
      unfold acquire
      rw [lowest_spec (closeDown t n) n 0 0 (by omega) (by omega) (by intro i h h'; omega) (by rw [closeDown_apply, if_pos (by omega)])]
    rw [e]
    have b1 := acquire_spec t n 1 .devnull _ a1
    have b2 := acquire_spec t n 2 .devnull _ b1
    have d1 : dup n (acquire n (closeDown t n) .devnull).1 (some 0) = (acquire n (acquire n (closeDown t n) .devnull).1 .devnull).1 := by
      unfold dup
      simp only
      rw [a1 0, if_pos (by omega)]
    have d2 : dup n (acquire n (acquire n (closeDown t n) .devnull).1 .devnull).1 (some 0) = (acquire n (acquire n (acquire n (closeDown t n) .devnull).1 .devnull).1 .devnull).1 := by
      unfold dup
      simp only
      rw [b1 0, if_pos (by omega)]
    rw [d1, d2]
    exact b2

/-- C98: if /dev/null cannot be opened, none of them is open. -/
theorem daemonize_no_null (n : Nat) (t : Table) : ∃ t', daemonize 0 n false t = .continues t' ∧ ∀ f, t' f = if f ≤ n then none else t f := by
  unfold daemonize
  rw [if_neg (by omega), if_neg (by omega)]
  exact ⟨_, rfl, closeDown_apply n t⟩

example : ∃ t', daemonize 0 1024 true (fun f => if f < 7 then some (.other f) else none) = .continues t' ∧ t' 2 = some .devnull ∧ t' 6 = none := by
  obtain ⟨t', h1, h2⟩ := daemonize_correct 1024 (fun f => if f < 7 then some (.other f) else none)
  exact ⟨t', h1, by rw [h2]; rfl, by rw [h2]; rfl⟩

/-- C98: the original process ends, with status 1 and a message if fork failed. -/
theorem daemonize_parent (pid : Int) (n : Nat) (null : Bool) (t : Table) :
    (pid > 0 → daemonize pid n null t = .exits 0 []) ∧ (pid < 0 → daemonize pid n null t = .exits 1 (bytes! "fork error")) := by
  constructor
  · intro h
    unfold daemonize
    rw [if_neg (by omega), if_pos h]
  · intro h
    unfold daemonize
    rw [if_pos h]

/-! ### C185 -/

theorem pipeLoop_first (ans : Answers) (t : Table) (r0 w0 : Nat) (h0 : ans.pipe 0 = some (r0, w0)) :
    childEnd (pipeLoop ans [0, 1, 2] t [(0, 0), (0, 0), (0, 0)]).2.1 0 = r0 := by
  cases h1 : ans.pipe 1 with
  | none => simp only [pipeLoop, h0, h1]; rfl
  | some p1 => cases h2 : ans.pipe 2 with
    | none => simp only [pipeLoop, h0, h1, h2]; rfl
    | some p2 => simp only [pipeLoop, h0, h1, h2]; rfl

/-- C185: if the first pipe gets one of the standard descriptors for reading, process_open fails, whatever the system answers. -/
theorem process_open_low_pipe (ans : Answers) (t : Table) (r0 w0 : Nat) (h0 : ans.pipe 0 = some (r0, w0)) (hr : r0 < 3)
    (r : Result) (h : process_open ans t = .ok r) : r.success = none := by
  have hp := pipeLoop_first ans t r0 w0 h0
  unfold process_open at h
  split at h
  · cases h
  simp only at h
  split at h
  · injection h with h; subst h; rfl
  · rename_i fa hfa
    revert hp h
    generalize pipeLoop ans [0, 1, 2] t [(0, 0), (0, 0), (0, 0)] = x
    obtain ⟨t', pipes, b⟩ := x
    intro hp h
    have e0 := add_eq ans _ _ _ _ hfa
    cases b with
    | false => injection h with h; subst h; rfl
    | true =>
      simp only at h hp
      split at h
      · injection h with h; subst h; rfl
      · rename_i fa1 hfa1
        have e1 := add_eq ans _ _ _ _ hfa1
        split at h
        · injection h with h; subst h; rfl
        · rename_i fa2 hfa2
          have e2 := add_eq ans _ _ _ _ hfa2
          have : (if ans.spawn = true then perform t' fa2 else none) = none := by
            rw [e2, e1, e0, hp]
            simp only [List.cons_append, List.nil_append, perform, close_apply]
            rcases (by omega : r0 = 0 ∨ r0 = 1 ∨ r0 = 2) with rfl | rfl | rfl <;> simp
          rw [this] at h
          injection h with h; subst h; rfl

/-- C185: POSIX systems hand out the lowest descriptors. Then process_open works, on a system that refuses nothing, exactly if the
    standard descriptors 0, 1 and 2 are open in the caller. -/
theorem process_open_iff_std (ans : Answers) (t : Table) (hl : Legal ans t) (hw : Willing ans) (hp : ∀ i, i < 3 → ans.pipe i ≠ none)
    (hlow : ∀ r w, ans.pipe 0 = some (r, w) → ∀ f, f < r → t f ≠ none) :
    (∃ r p child, process_open ans t = .ok r ∧ r.success = some (p, child)) ↔ ∀ f, f < 3 → t f ≠ none := by
  obtain ⟨⟨r0, w0⟩, h0⟩ := Option.ne_none_iff_exists'.1 (hp 0 (by omega))
  obtain ⟨⟨r1, w1⟩, h1⟩ := Option.ne_none_iff_exists'.1 (hp 1 (by omega))
  obtain ⟨⟨r2, w2⟩, h2⟩ := Option.ne_none_iff_exists'.1 (hp 2 (by omega))
  constructor
  · rintro ⟨r, p, child, h, hs⟩ f hf hn
    have hr0 : r0 ≤ f := by
      rcases Nat.lt_or_ge f r0 with hh | hh
      · exact absurd hn (hlow _ _ h0 f hh)
      · exact hh
    rw [process_open_low_pipe ans t r0 w0 h0 (by omega) r h] at hs
    cases hs
  · intro h
    obtain ⟨r, p, child, h1, h2, _⟩ := process_open_succeeds ans t hl hw r0 w0 r1 w1 r2 w2 h0 h1 h2
      ⟨h 0 (by omega), h 1 (by omega), h 2 (by omega)⟩
    exact ⟨r, p, child, h1, h2⟩

/-- C185: so a daemon (with at least three descriptors allowed) can start processes exactly if /dev/null could be opened. -/
theorem daemon_process_open (n : Nat) (hn : 3 ≤ n) (null : Bool) (t t' : Table) (hd : daemonize 0 n null t = .continues t')
    (ans : Answers) (hl : Legal ans t') (hw : Willing ans) (hp : ∀ i, i < 3 → ans.pipe i ≠ none)
    (hlow : ∀ r w, ans.pipe 0 = some (r, w) → ∀ f, f < r → t' f ≠ none) :
    (∃ r p child, process_open ans t' = .ok r ∧ r.success = some (p, child)) ↔ null = true := by
  rw [process_open_iff_std ans t' hl hw hp hlow]
  cases null with
  | true =>
    obtain ⟨t'', h1, h2⟩ := daemonize_correct n t
    rw [h1] at hd
    injection hd with hd
    subst hd
    refine ⟨fun _ => rfl, fun _ f hf => ?_⟩
    rw [h2, if_pos ⟨hf, by omega⟩]
    simp
  | false =>
    obtain ⟨t'', h1, h2⟩ := daemonize_no_null n t
    rw [h1] at hd
    injection hd with hd
    subst hd
    refine ⟨fun h => absurd ?_ (h 0 (by omega)), fun h => by cases h⟩
    rw [h2, if_pos (by omega)]

/-- Descriptor 2 is closed; the pipes get 2 to 7. -/
example : ¬ ∃ r p child, process_open ⟨true, fun _ => true, fun i => some (2 + 2 * i, 3 + 2 * i), true⟩
    (fun f => if f < 2 then some (.other f) else none) = .ok r ∧ r.success = some (p, child) := by
  rw [process_open_iff_std _ _ ⟨by
      intro i r w h
      simp only [Option.some.injEq, Prod.mk.injEq] at h
      obtain ⟨rfl, rfl⟩ := h
      exact ⟨if_neg (by omega), if_neg (by omega), by omega⟩, by
      intro i j r w r' w' hij h h'
      simp only [Option.some.injEq, Prod.mk.injEq] at h h'
      omega⟩ ⟨rfl, fun _ _ => rfl, rfl⟩ (by simp) (by
      intro r w h f hf
      simp only [Option.some.injEq, Prod.mk.injEq] at h
      rw [if_pos (by omega)]; simp)]
  intro h
  exact h 2 (by omega) rfl

end Ulz.Props

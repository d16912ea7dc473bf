import Verif.Proofs.Stopwatch
import Verif.Props.Timelib
/-! Property C214: measuring time, and times of files. -/
namespace Ulz.Props
open Ulz.Timelib Ulz.Timelib.Spec Ulz.Stopwatch Ulz.Stopwatch.Spec

/-- C214: what mspassed gives for any clock: the milliseconds rounded down, unless they or the whole seconds of them do not fit a
    long. -/
theorem mspassed_exact (now t : Time) (h1 : Normal 1000000 now) (h2 : Normal 1000000 t) (hs : In64 now.sec) (ht : In64 t.sec) :
    mspassed now t = if -9223372036854775000000 ≤ us now - us t ∧ (us now - us t) / 1000 ≤ 9223372036854775807 then
      .ok ((us now - us t) / 1000) else .error .overflow := mspassed_eq now t h1 h2 hs ht

/-- The elapsed time -9223372036854775001 ms fits a long, and yet the sum of its parts is undefined. -/
example : mspassed ⟨0, 999000⟩ ⟨9223372036854776, 0⟩ = .error .overflow ∧ In64 (-9223372036854775001) := by decide

/-- C214: what getutime gives for any clock. -/
theorem getutime_exact (t : Time) (h : Normal 1000000 t) :
    getutime t = if -9223372036854 ≤ t.sec ∧ us t ≤ 9223372036854775807 then .ok (us t) else .error .overflow := getutime_eq t h

example : getutime ⟨9223372036854, 775807⟩ = .ok 9223372036854775807 ∧ getutime ⟨9223372036854, 775808⟩ = .error .overflow := by decide

/-- C214: a stopwatch started and read once shows the milliseconds between the two readings, and getutime agrees. -/
theorem stopwatch_once (a b : Time) (na : Normal 1000000 a) (nb : Normal 1000000 b) (sa : Sane a) (sb : Sane b) :
    ∃ x y, getutime a = .ok x ∧ getutime b = .ok y ∧ mspassed b (gettimestamp a) = .ok ((y - x) / 1000) := by
  refine ⟨us a, us b, ?_, ?_, sane_ms nb na sb sa⟩
  · rw [getutime_eq a na, if_pos]
    obtain ⟨a1, a2⟩ := na
    unfold Sane at sa
    unfold us
    omega
  · rw [getutime_eq b nb, if_pos]
    obtain ⟨a1, a2⟩ := nb
    unfold Sane at sb
    unfold us
    omega

example : mspassed ⟨5, 100⟩ (gettimestamp ⟨3, 999100⟩) = .ok 1001 := by decide

/-- C214: the sum of any number of laps is never more than the time spent in them, and lacks less than a millisecond for every
    lap. -/
theorem stopwatch_laps (t : Time) (cs : List (Time × Time)) (hn : Normal 1000000 t) (hs : Sane t) (hf : Forward t cs)
    (hp : ∀ p ∈ cs, Sane p.1 ∧ Sane p.2) :
    ∃ r, lapLoop (gettimestamp t) 0 cs = .ok r ∧ 1000 * r ≤ us (lastReading t cs) - us t - gaps cs ∧
      us (lastReading t cs) - us t - gaps cs ≤ 1000 * r + 999 * cs.length := by
  have hl : ∀ (cs : List (Time × Time)) (t : Time), Normal 1000000 t → Sane t → Forward t cs → (∀ p ∈ cs, Sane p.1 ∧ Sane p.2) →
      Sane (lastReading t cs) ∧ Normal 1000000 (lastReading t cs) := by
    intro cs
    induction cs with
    | nil => exact fun t hn hs _ _ => ⟨hs, hn⟩
    | cons p ps ih =>
      obtain ⟨a, b⟩ := p
      intro t hn hs hf hp
      cases ps with
      | nil => exact ⟨(hp _ (List.mem_cons_self ..)).1, hf.1.1⟩
      | cons q qs => exact ih b hf.1.2.1 (hp _ (List.mem_cons_self ..)).2 hf.2 (fun p h => hp p (List.mem_cons_of_mem _ h))
  obtain ⟨s2, n2⟩ := hl cs t hn hs hf hp
  obtain ⟨r, e, b1, b2⟩ := lap_spec cs t 0 hn hs hf hp (Int.le_refl _) (by
    obtain ⟨a1, a2⟩ := hn
    obtain ⟨c1, c2⟩ := n2
    unfold Sane at hs s2
    unfold us
    omega)
  exact ⟨r, e, by omega, by omega⟩

/-- The loss happens: three laps of 999 microseconds each count for nothing. -/
example : lapLoop ⟨7, 0⟩ 0 [(⟨7, 999⟩, ⟨7, 999⟩), (⟨7, 1998⟩, ⟨7, 1998⟩), (⟨7, 2997⟩, ⟨7, 2997⟩)] = .ok 0 ∧
    us (lastReading ⟨7, 0⟩ [(⟨7, 999⟩, ⟨7, 999⟩), (⟨7, 1998⟩, ⟨7, 1998⟩), (⟨7, 2997⟩, ⟨7, 2997⟩)]) - us ⟨7, 0⟩ = 2997 := by decide

example : Forward ⟨7, 0⟩ [(⟨7, 999⟩, ⟨7, 999⟩), (⟨8, 1⟩, ⟨8, 5⟩)] ∧ gaps [(⟨7, 999⟩, ⟨7, 999⟩), (⟨8, 1⟩, ⟨8, 5⟩)] = 0 := by
  refine ⟨⟨?_, ?_, trivial⟩, rfl⟩ <;> (unfold Normal us; decide)

/-- C214: a wait with a limit ends in the first round that finds the limit reached, and in no other. -/
theorem stopwatch_wait (t : Time) (limit : Int) (cs : List Time) (n : Nat) (hn : Normal 1000000 t) (hs : Sane t)
    (hc : ∀ c ∈ cs, Normal 1000000 c ∧ Sane c) :
    waitLoop (gettimestamp t) limit cs = .ok n ↔ n < cs.length ∧
      (∀ i, i < n → ∀ c, cs[i]? = some c → us c - us t < 1000 * limit) ∧ ∀ c, cs[n]? = some c → 1000 * limit ≤ us c - us t :=
  wait_spec t limit hn hs cs n hc

/-- If the clock is set back the wait goes on. -/
example : waitLoop ⟨100, 0⟩ 5 [⟨100, 3000⟩, ⟨99, 0⟩, ⟨100, 4999⟩, ⟨100, 5000⟩, ⟨101, 0⟩] = .ok 3 := by decide

/-- C214: around an msleep or a microsleep that returned 0, interrupted or not, a stopwatch shows at least the milliseconds asked
    for, if the time that passed between the readings is not less than what was slept and the clock is right. -/
theorem sleep_measured (d : Int) (h : 0 ≤ d) (as : List Ans) (ha : ∀ a ∈ as, AnsOk a) (tr : List (Time × Ans)) (t now : Time) (m0 m1 : Int)
    (s0 : Shows t m0) (s1 : Shows now m1) (q0 : Sane t) (q1 : Sane now) (hm : total tr ≤ m1 - m0) :
    (msleep d as = .ok (0, tr) → ∃ ms, mspassed now (gettimestamp t) = .ok ms ∧ d ≤ ms) ∧
    (microsleep d as = .ok (0, tr) → ∃ ms, mspassed now (gettimestamp t) = .ok ms ∧ d / 1000 ≤ ms) := by
  have e : mspassed now (gettimestamp t) = .ok ((us now - us t) / 1000) := sane_ms s1.1 s0.1 q1 q0
  have u0 := s0.2
  have u1 := s1.2
  have key : ∀ {n : Int} {r : C (Int × List (Time × Ans))}, Sleeps n as r → r = .ok (0, tr) → total tr = n := by
    intro n r hs hr
    unfold Sleeps at hs
    subst hr
    cases hd : as.dropWhile interrupted with
    | nil => rw [hd] at hs; cases hs
    | cons b bs =>
      rw [hd] at hs
      cases b with
      | done =>
        obtain ⟨tr', e1, e2, -⟩ := hs
        cases e1
        exact e2
      | eintr r =>
        obtain ⟨tr', e1, -⟩ := hs
        cases e1
      | err =>
        obtain ⟨tr', e1, -⟩ := hs
        cases e1
  constructor
  · intro hr
    have := key (msleep_correct d h as ha) hr
    exact ⟨_, e, by omega⟩
  · intro hr
    have := key (microsleep_correct d h as ha) hr
    exact ⟨_, e, by omega⟩

/-- A sleep of 2 ms, interrupted once, from 1.9999995 s on the clock. -/
example : msleep 2 [.eintr ⟨0, 500000⟩, .done] = .ok (0, [(⟨0, 2000000⟩, .eintr ⟨0, 500000⟩), (⟨0, 500000⟩, .done)]) ∧
    total [(⟨0, 2000000⟩, .eintr ⟨0, 500000⟩), (⟨0, 500000⟩, .done)] ≤ 2002000000 - 1999999500 ∧
    mspassed ⟨2, 2000⟩ ⟨1, 999999⟩ = .ok 2 := by decide

example : Shows ⟨1, 999999⟩ 1999999500 ∧ Shows ⟨2, 2000⟩ 2002000000 := by unfold Shows Normal us; decide

/-- C214: getFileModTime gives the time that stat finds, and 0 exactly if there is no file or its time is the epoch. -/
theorem modtime_exact (st : Option Int) :
    (∀ m, st = some m → getFileModTime st = m) ∧ (getFileModTime st = 0 ↔ st = none ∨ st = some 0) := by
  cases st with
  | none => exact ⟨fun m h => (nomatch h), by simp [getFileModTime]⟩
  | some m => exact ⟨fun k h => by cases h; rfl, by simp [getFileModTime]⟩

/-- C214: so a comparison of two times of files is right if both exist; a missing target counts as outdated exactly if the source
    was changed after the epoch, and with a missing source exactly the targets from before the epoch do. -/
theorem modtime_compare (a b : Option Int) :
    outdated a b = true ↔ (∃ x y, a = some x ∧ b = some y ∧ x < y) ∨ (a = none ∧ ∃ y, b = some y ∧ 0 < y) ∨ (b = none ∧ ∃ x, a = some x ∧ x < 0) := by
  unfold outdated
  rw [decide_eq_true_iff]
  cases a <;> cases b <;> simp [getFileModTime]

example : outdated none (some 1700000000) = true ∧ outdated none (some (-5)) = false ∧ outdated (some 1600000000) (some 1700000000) = true := by decide

end Ulz.Props

import Verif.Proofs.Timelib
/-! Properties C75 and C76: time arithmetic and sleeping. -/
namespace Ulz.Props
open Ulz.Timelib Ulz.Timelib.Spec

/-- C75: timespec_diff is the difference in nanoseconds, and undefined exactly if a step of it overflows. -/
theorem timespec_diff_correct (a b : Time) :
    timespec_diff a b = if In64 (a.sec - b.sec) ∧ In64 ((a.sec - b.sec) * 1000000000) ∧ In64 (a.frac - b.frac) ∧ In64 (ns a - ns b) then
      .ok (ns a - ns b) else .error .overflow := by
  unfold timespec_diff
  have e : (a.sec - b.sec) * 1000000000 + (a.frac - b.frac) = ns a - ns b := by unfold ns; omega
  by_cases h1 : In64 (a.sec - b.sec)
  · rw [i64_ok h1]
    simp only [ok_bind]
    by_cases h2 : In64 ((a.sec - b.sec) * 1000000000)
    · rw [i64_ok h2]
      simp only [ok_bind]
      by_cases h3 : In64 (a.frac - b.frac)
      · rw [i64_ok h3]
        simp only [ok_bind]
        rw [e]
        by_cases h4 : In64 (ns a - ns b)
        · rw [i64_ok h4, if_pos ⟨h1, h2, h3, h4⟩]
        · rw [i64_bad h4, if_neg (fun h => h4 h.2.2.2)]
      · rw [i64_bad h3, if_neg (fun h => h3 h.2.2.1)]; rfl
    · rw [i64_bad h2, if_neg (fun h => h2 h.2.1)]; rfl
  · rw [i64_bad h1, if_neg (fun h => h1 h.1)]; rfl

/-- C75: it is defined for normalized times up to 292 years apart, ... -/
theorem timespec_diff_range (a b : Time) (ha : Normal 1000000000 a) (hb : Normal 1000000000 b)
    (h : -9223372035 ≤ a.sec - b.sec ∧ a.sec - b.sec ≤ 9223372035) : timespec_diff a b = .ok (ns a - ns b) := by
  rw [timespec_diff_correct]
  apply if_pos
  unfold Normal at ha hb
  unfold In64 ns
  refine ⟨?_, ?_, ?_, ?_⟩ <;> omega

/-- C75: ... and there antisymmetric and additive. -/
theorem timespec_diff_laws (a b c : Time) (ha : Normal 1000000000 a) (hb : Normal 1000000000 b) (hc : Normal 1000000000 c)
    (h1 : -4611686017 ≤ a.sec - b.sec ∧ a.sec - b.sec ≤ 4611686017) (h2 : -4611686017 ≤ b.sec - c.sec ∧ b.sec - c.sec ≤ 4611686017) :
    ∃ x y, timespec_diff a b = .ok x ∧ timespec_diff b a = .ok (-x) ∧ timespec_diff b c = .ok y ∧ timespec_diff a c = .ok (x + y) := by
  refine ⟨ns a - ns b, ns b - ns c, ?_, ?_, ?_, ?_⟩
  · exact timespec_diff_range a b ha hb (by omega)
  · rw [timespec_diff_range b a hb ha (by omega)]; congr 1; omega
  · exact timespec_diff_range b c hb hc (by omega)
  · rw [timespec_diff_range a c ha hc (by omega)]; congr 1; omega

example : timespec_diff ⟨5, 100⟩ ⟨3, 999999999⟩ = .ok 1000000101 :=
  timespec_diff_range _ _ (by constructor <;> decide) (by constructor <;> decide) (by decide)

/-- C75: getutime is the time in microseconds. -/
theorem getutime_correct (t : Time) (h : Normal 1000000 t) (hr : -9223372036854 ≤ t.sec ∧ t.sec < 9223372036854) : getutime t = .ok (us t) := by
  unfold Normal at h
  unfold getutime
  rw [i64_ok (by unfold In64; omega)]
  simp only [ok_bind]
  rw [i64_ok (by unfold In64; omega)]
  simp only [ok_bind]
  rw [i64_ok (by unfold In64; omega)]
  unfold us
  congr 1; omega

example : getutime ⟨1700000000, 123456⟩ = .ok 1700000000123456 := getutime_correct _ (by constructor <;> decide) (by decide)

/-- C75: mspassed is the elapsed time in milliseconds, rounded down (also when the clock was set back: Int division by a positive
    number rounds down). -/
theorem mspassed_correct (now t : Time) (h1 : Normal 1000000 now) (h2 : Normal 1000000 t)
    (hr : -9223372036854774 ≤ now.sec - t.sec ∧ now.sec - t.sec ≤ 9223372036854774) :
    mspassed now t = .ok ((us now - us t) / 1000) := by
  unfold Normal at h1 h2
  unfold mspassed timersub
  rw [i64_ok (by unfold In64; omega)]
  simp only [ok_bind]
  rw [i64_ok (by unfold In64; omega)]
  simp only [ok_bind]
  by_cases h : now.frac - t.frac < 0
  · rw [if_pos h, i64_ok (by unfold In64; omega)]
    simp only [ok_bind]
    rw [i64_ok (by unfold In64; omega)]
    simp only [ok_bind, pure_eq_ok]
    rw [i64_ok (by unfold In64; omega)]
    simp only [ok_bind]
    rw [Int.tdiv_eq_ediv_of_nonneg (by omega), i64_ok (by unfold In64; omega)]
    unfold us
    congr 1; omega
  · rw [if_neg h]
    simp only [ok_bind, pure_eq_ok]
    rw [i64_ok (by unfold In64; omega)]
    simp only [ok_bind]
    rw [Int.tdiv_eq_ediv_of_nonneg (by omega), i64_ok (by unfold In64; omega)]
    unfold us
    congr 1; omega

example : mspassed ⟨10, 1999⟩ ⟨8, 500000⟩ = .ok 1501 := mspassed_correct _ _ (by constructor <;> decide) (by constructor <;> decide) (by decide)
example : mspassed ⟨8, 500000⟩ ⟨10, 1999⟩ = .ok (-1502) := mspassed_correct _ _ (by constructor <;> decide) (by constructor <;> decide) (by decide)

/-- Is this answer an interruption? -/
def interrupted : Ans → Bool
  | .eintr _ => true
  | _ => false

/-- What C75 and C76 say about a sleep of `d` nanoseconds, for the system's answers `as`: it goes on as long as it is
    interrupted; when a call ends otherwise it returns, 0 exactly if that call slept to its end, and then it has slept `d`
    nanoseconds in total. -/
def Sleeps (d : Int) (as : List Ans) (r : C (Int × List (Time × Ans))) : Prop :=
  match as.dropWhile interrupted with
  | [] => r = .error .hang
  | .done :: _ => ∃ tr, r = .ok (0, tr) ∧ total tr = d ∧ tr.map Prod.snd = as.takeWhile interrupted ++ [.done]
  | _ :: _ => ∃ tr, r = .ok (-1, tr) ∧ tr.map Prod.snd = as.takeWhile interrupted ++ [.err]

theorem sleeps (req : Time) (h : Duration req) (as : List Ans) (ha : ∀ a ∈ as, AnsOk a) : Sleeps (ns req) as (sleepLoop req as) := by
  have e : interrupted = (fun a => match a with | .eintr _ => true | _ => false) := by funext a; cases a <;> rfl
  unfold Sleeps
  rw [e]
  exact sleep_spec as req h ha

/-- C75, C76: msleep sleeps the given milliseconds, however often it is interrupted. -/
theorem msleep_correct (ms : Int) (h : 0 ≤ ms) (as : List Ans) (ha : ∀ a ∈ as, AnsOk a) : Sleeps (ms * 1000000) as (msleep ms as) := by
  unfold msleep
  rw [Int.tmod_eq_emod_of_nonneg h, Int.tdiv_eq_ediv_of_nonneg h, i64_ok (by unfold In64; omega)]
  simp only [ok_bind]
  rw [i64_ok (by unfold In64; omega)]
  simp only [ok_bind]
  have := sleeps ⟨ms / 1000, ms % 1000 * 1000 * 1000⟩ (by unfold Duration Normal; simp only; omega) as ha
  rwa [show ns ⟨ms / 1000, ms % 1000 * 1000 * 1000⟩ = ms * 1000000 from by unfold ns; simp only; omega] at this

/-- C75, C76: microsleep sleeps the given microseconds. -/
theorem microsleep_correct (us : Int) (h : 0 ≤ us) (as : List Ans) (ha : ∀ a ∈ as, AnsOk a) : Sleeps (us * 1000) as (microsleep us as) := by
  unfold microsleep
  rw [Int.tmod_eq_emod_of_nonneg h, Int.tdiv_eq_ediv_of_nonneg h, i64_ok (by unfold In64; omega)]
  simp only [ok_bind]
  have := sleeps ⟨us / 1000000, us % 1000000 * 1000⟩ (by unfold Duration Normal; simp only; omega) as ha
  rwa [show ns ⟨us / 1000000, us % 1000000 * 1000⟩ = us * 1000 from by unfold ns; simp only; omega] at this

/-- Two interruptions: 1500 ms are slept as 0.5 s, 0.75 s and 0.25 s. -/
example : ∃ tr, msleep 1500 [.eintr ⟨1, 0⟩, .eintr ⟨0, 250000000⟩, .done] = .ok (0, tr) ∧ total tr = 1500000000 := by
  obtain ⟨tr, h1, h2, _⟩ := msleep_correct 1500 (by decide) [.eintr ⟨1, 0⟩, .eintr ⟨0, 250000000⟩, .done]
    (by intro a ha; simp only [List.mem_cons, List.not_mem_nil, or_false] at ha; rcases ha with rfl | rfl | rfl <;> simp [AnsOk, Duration, Normal])
  exact ⟨tr, h1, h2⟩

/-- C76: a negative duration fails at once without sleeping. -/
theorem sleep_negative (d : Int) (h : d < 0) (hd : In64 d) (a : Ans) (as : List Ans) :
    (∃ req, msleep d (a :: as) = .ok (-1, [(req, .err)])) ∧ ∃ req, microsleep d (a :: as) = .ok (-1, [(req, .err)]) := by
  unfold In64 at hd
  have bad : ∀ (u : Int), 0 < u → d.tdiv u < 0 ∨ d.tmod u < 0 := by
    intro u hu
    have e := Int.mul_tdiv_add_tmod d u
    apply Classical.byContradiction
    intro hn
    have h1 : 0 ≤ d.tdiv u := by omega
    have h2 := Int.mul_nonneg (Int.le_of_lt hu) h1
    omega
  have mod_le : ∀ (u : Int), 0 < u → -u < d.tmod u ∧ d.tmod u ≤ 0 := by
    intro u hu
    have e := Int.neg_tmod (a := -d) (b := u)
    rw [Int.neg_neg] at e
    have h1 := Int.tmod_lt_of_pos (-d) hu
    have h2 := Int.tmod_nonneg (a := -d) u (by omega)
    omega
  constructor
  · refine ⟨⟨d.tdiv 1000, d.tmod 1000 * 1000 * 1000⟩, ?_⟩
    have h1 := bad 1000 (by decide)
    have h2 := mod_le 1000 (by decide)
    unfold msleep
    rw [i64_ok (by unfold In64; omega)]
    simp only [ok_bind]
    rw [i64_ok (by unfold In64; omega)]
    simp only [ok_bind]
    unfold sleepLoop nanosleep
    rw [if_pos (by simp only; omega)]; rfl
  · refine ⟨⟨d.tdiv 1000000, d.tmod 1000000 * 1000⟩, ?_⟩
    have h1 := bad 1000000 (by decide)
    have h2 := mod_le 1000000 (by decide)
    unfold microsleep
    rw [i64_ok (by unfold In64; omega)]
    simp only [ok_bind]
    unfold sleepLoop nanosleep
    rw [if_pos (by simp only; omega)]; rfl

example : ∃ req, msleep (-1) [.done] = .ok (-1, [(req, .err)]) := (sleep_negative (-1) (by decide) (by constructor <;> decide) .done []).1

end Ulz.Props

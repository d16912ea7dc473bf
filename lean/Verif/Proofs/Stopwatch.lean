import Verif.Model.Stopwatch
import Verif.Spec.Stopwatch
import Verif.Proofs.Timelib
/-! Lemmas about measuring time. -/
namespace Ulz.Stopwatch
open Timelib Timelib.Spec Spec

theorem mspassed_eq (now t : Time) (h1 : Normal 1000000 now) (h2 : Normal 1000000 t) (hs : In64 now.sec) (ht : In64 t.sec) :
    mspassed now t = if -9223372036854775000000 ≤ us now - us t ∧ (us now - us t) / 1000 ≤ 9223372036854775807 then
      .ok ((us now - us t) / 1000) else .error .overflow := by
  obtain ⟨a1, a2⟩ := h1
  obtain ⟨b1, b2⟩ := h2
  have hu : In64 (now.frac - t.frac) := by unfold In64; omega
  unfold mspassed timersub
  by_cases c1 : In64 (now.sec - t.sec)
  · rw [i64_ok c1]
    simp only [ok_bind]
    rw [i64_ok hu]
    simp only [ok_bind]
    by_cases hn : now.frac - t.frac < 0
    · rw [if_pos hn]
      by_cases c2 : In64 (now.sec - t.sec - 1)
      · rw [i64_ok c2]
        simp only [ok_bind]
        rw [i64_ok (x := now.frac - t.frac + 1000000) (by unfold In64; omega)]
        simp only [ok_bind, pure_eq_ok]
        have hd : (now.frac - t.frac + 1000000).tdiv 1000 = (now.frac - t.frac + 1000000) / 1000 :=
          Int.tdiv_eq_ediv_of_nonneg (by omega)
        rw [hd]
        by_cases c3 : In64 ((now.sec - t.sec - 1) * 1000)
        · rw [i64_ok c3]
          simp only [ok_bind]
          have e : (now.sec - t.sec - 1) * 1000 + (now.frac - t.frac + 1000000) / 1000 = (us now - us t) / 1000 := by unfold us; omega
          rw [e]
          by_cases c4 : In64 ((us now - us t) / 1000)
          · rw [i64_ok c4, if_pos]
            unfold In64 at c3 c4
            unfold us at *
            omega
          · rw [i64_bad c4, if_neg]
            unfold In64 at c3 c4
            unfold us at *
            omega
        · rw [i64_bad c3, if_neg]
          · rfl
          · unfold In64 at c3 c2
            unfold us
            omega
      · rw [i64_bad c2, if_neg]
        · rfl
        · unfold In64 at c2 c1
          unfold us
          omega
    · rw [if_neg hn]
      simp only [ok_bind, pure_eq_ok]
      have hd : (now.frac - t.frac).tdiv 1000 = (now.frac - t.frac) / 1000 := Int.tdiv_eq_ediv_of_nonneg (by omega)
      rw [hd]
      by_cases c3 : In64 ((now.sec - t.sec) * 1000)
      · rw [i64_ok c3]
        simp only [ok_bind]
        have e : (now.sec - t.sec) * 1000 + (now.frac - t.frac) / 1000 = (us now - us t) / 1000 := by unfold us; omega
        rw [e]
        by_cases c4 : In64 ((us now - us t) / 1000)
        · rw [i64_ok c4, if_pos]
          unfold In64 at c3 c4
          unfold us at *
          omega
        · rw [i64_bad c4, if_neg]
          unfold In64 at c3 c4
          unfold us at *
          omega
      · rw [i64_bad c3, if_neg]
        · rfl
        · unfold In64 at c3
          unfold us
          omega
  · rw [i64_bad c1, if_neg]
    · rfl
    · unfold In64 at c1 hs ht
      unfold us
      omega

theorem getutime_eq (t : Time) (h : Normal 1000000 t) :
    getutime t = if -9223372036854 ≤ t.sec ∧ us t ≤ 9223372036854775807 then .ok (us t) else .error .overflow := by
  obtain ⟨a1, a2⟩ := h
  unfold getutime
  by_cases c1 : In64 (t.sec * 1000)
  · rw [i64_ok c1]
    simp only [ok_bind]
    by_cases c2 : In64 (t.sec * 1000 * 1000)
    · rw [i64_ok c2]
      simp only [ok_bind]
      have e : t.sec * 1000 * 1000 + t.frac = us t := by unfold us; omega
      rw [e]
      by_cases c3 : In64 (us t)
      · rw [i64_ok c3, if_pos]
        unfold In64 us at *
        omega
      · rw [i64_bad c3, if_neg]
        unfold In64 us at *
        omega
    · rw [i64_bad c2, if_neg]
      · rfl
      · unfold In64 us at *
        omega
  · rw [i64_bad c1, if_neg]
    · rfl
    · unfold In64 us at *
      omega

theorem sane_ms {now t : Time} (h1 : Normal 1000000 now) (h2 : Normal 1000000 t) (s1 : Sane now) (s2 : Sane t) :
    mspassed now t = .ok ((us now - us t) / 1000) := by
  unfold Sane at s1 s2
  rw [mspassed_eq now t h1 h2 (by unfold In64; omega) (by unfold In64; omega), if_pos]
  obtain ⟨a1, a2⟩ := h1
  obtain ⟨b1, b2⟩ := h2
  unfold us
  omega

theorem lap_spec : ∀ (cs : List (Time × Time)) (t : Time) (sum : Int), Normal 1000000 t → Sane t → Forward t cs →
    (∀ p ∈ cs, Sane p.1 ∧ Sane p.2) → 0 ≤ sum → sum + (us (lastReading t cs) - us t) / 1000 ≤ 9223372036854775807 →
    ∃ r, lapLoop t sum cs = .ok r ∧ 1000 * (r - sum) ≤ us (lastReading t cs) - us t - gaps cs ∧
      us (lastReading t cs) - us t - gaps cs ≤ 1000 * (r - sum) + 999 * cs.length
  | [], t, sum, _, _, _, _, _, _ => ⟨sum, rfl, by simp [lastReading, gaps], by simp [lastReading, gaps]⟩
  | [(a, b)], t, sum, hn, hs, hf, hp, h0, hb => by
    obtain ⟨⟨na, nb, l1, l2⟩, -⟩ := hf
    obtain ⟨sa, sb⟩ := hp _ (List.mem_cons_self ..)
    simp only [lastReading] at hb
    refine ⟨sum + (us a - us t) / 1000, ?_, ?_, ?_⟩
    · simp only [lapLoop]
      rw [sane_ms na hn sa hs]
      simp only [ok_bind]
      rw [i64_ok (by unfold In64; omega)]
      rfl
    · simp only [lastReading, gaps]; omega
    · simp only [lastReading, gaps, List.length_cons, List.length_nil]; omega
  | (a, b) :: c :: cs, t, sum, hn, hs, hf, hp, h0, hb => by
    obtain ⟨⟨na, nb, l1, l2⟩, hf⟩ := hf
    obtain ⟨sa, sb⟩ := hp _ (List.mem_cons_self ..)
    have hle : us b ≤ us (lastReading b (c :: cs)) := by
      clear hb hp sa sb
      clear hs
      revert hf
      have : ∀ (cs : List (Time × Time)) (t : Time), Forward t cs → us t ≤ us (lastReading t cs) := by
        intro cs
        induction cs with
        | nil => intro t _; exact Int.le_refl _
        | cons p ps ih =>
          obtain ⟨x, y⟩ := p
          intro t hf
          obtain ⟨⟨_, _, k1, k2⟩, hf⟩ := hf
          cases ps with
          | nil => exact k1
          | cons q qs =>
            have := ih y hf
            simp only [lastReading]
            omega
      exact this _ _
    simp only [lastReading] at hb
    obtain ⟨r, e, b1, b2⟩ := lap_spec (c :: cs) b (sum + (us a - us t) / 1000) nb sb hf (fun p hp' => hp p (List.mem_cons_of_mem _ hp')) (by omega)
      (by omega)
    refine ⟨r, ?_, ?_, ?_⟩
    · unfold lapLoop
      rw [sane_ms na hn sa hs]
      simp only [ok_bind]
      rw [i64_ok (by unfold In64; omega)]
      simp only [ok_bind, gettimestamp]
      exact e
    · simp only [lastReading, gaps]; omega
    · simp only [lastReading, gaps, List.length_cons] at b2 ⊢; omega

theorem wait_spec (t : Time) (limit : Int) (hn : Normal 1000000 t) (hs : Sane t) : ∀ (cs : List Time) (n : Nat),
    (∀ c ∈ cs, Normal 1000000 c ∧ Sane c) →
    (waitLoop t limit cs = .ok n ↔ n < cs.length ∧ (∀ i, i < n → ∀ c, cs[i]? = some c → us c - us t < 1000 * limit) ∧
      ∀ c, cs[n]? = some c → 1000 * limit ≤ us c - us t)
  | [], n, _ => by
    constructor
    · intro h; cases h
    · rintro ⟨h, -⟩; simp at h
  | a :: cs, n, h => by
    obtain ⟨na, sa⟩ := h a (List.mem_cons_self ..)
    have ih := fun n => wait_spec t limit hn hs cs n (fun c hc => h c (List.mem_cons_of_mem _ hc))
    unfold waitLoop
    rw [sane_ms na hn sa hs]
    simp only [ok_bind]
    by_cases hl : (us a - us t) / 1000 < limit
    · rw [if_pos hl]
      constructor
      · intro e
        cases hw : waitLoop t limit cs with
        | error x => rw [hw] at e; cases e
        | ok m =>
          rw [hw] at e
          have e : m + 1 = n := Except.ok.inj e
          subst e
          obtain ⟨k1, k2, k3⟩ := (ih m).1 hw
          refine ⟨by simpa using k1, ?_, fun c hc => k3 c (by simpa using hc)⟩
          intro i hi c hc
          cases i with
          | zero => have hc : a = c := by simpa using hc
                    subst hc; omega
          | succ i => exact k2 i (by omega) c (by simpa using hc)
      · rintro ⟨k1, k2, k3⟩
        cases n with
        | zero => have := k3 a (by simp); omega
        | succ m =>
          rw [(ih m).2 ⟨by simpa using k1, fun i hi c hc => k2 (i + 1) (by omega) c (by simpa using hc), fun c hc => k3 c (by simpa using hc)⟩]
          rfl
    · rw [if_neg hl]
      constructor
      · intro e
        have e : 0 = n := Except.ok.inj e
        subst e
        refine ⟨by simp, fun i hi => absurd hi (by omega), ?_⟩
        intro c hc
        have hc : a = c := by simpa using hc
        subst hc; omega
      · rintro ⟨k1, k2, k3⟩
        cases n with
        | zero => rfl
        | succ m => have := k2 0 (by omega) a (by simp); omega

end Ulz.Stopwatch

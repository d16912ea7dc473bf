import Verif.Spec.Stamps
import Verif.Props.Output
/-! C232: the order of time stamps. -/
namespace Ulz.Props
open Ulz.Stamps.Spec Ulz.Output Ulz.Output.Spec

theorem sorts_self (u : List Byte) (s t : List Byte) : sortsBefore (u ++ s) (u ++ t) ↔ sortsBefore s t := by
  induction u with
  | nil => rfl
  | cons x u ih =>
    simp only [List.cons_append, sortsBefore]
    rw [ih]
    constructor
    · rintro (h | h)
      · omega
      · exact h.2
    · exact fun h => .inr ⟨trivial, h⟩

theorem two_eq (n : Nat) : two n = [BitVec.ofNat 8 (48 + n / 10 % 10), BitVec.ofNat 8 (48 + n % 10)] := by simp [two]

theorem digit_eq {a b : Nat} (ha : a < 10) (hb : b < 10) : (BitVec.ofNat 8 (48 + a) = BitVec.ofNat 8 (48 + b)) ↔ a = b := by
  constructor
  · intro h
    have := congrArg BitVec.toNat h
    simp only [BitVec.toNat_ofNat] at this
    omega
  · rintro rfl; rfl

theorem sorts_digit {a b : Nat} (ha : a < 10) (hb : b < 10) (s t : List Byte) :
    sortsBefore (BitVec.ofNat 8 (48 + a) :: s) (BitVec.ofNat 8 (48 + b) :: t) ↔ a < b ∨ a = b ∧ sortsBefore s t := by
  simp only [sortsBefore]
  rw [digit_eq ha hb]
  simp only [BitVec.toNat_ofNat]
  have : ((48 + a) % 2 ^ 8 < (48 + b) % 2 ^ 8) ↔ a < b := by omega
  rw [this]

theorem sorts_two {a b : Nat} (ha : a < 100) (hb : b < 100) (s t : List Byte) :
    sortsBefore (two a ++ s) (two b ++ t) ↔ a < b ∨ a = b ∧ sortsBefore s t := by
  rw [two_eq, two_eq]
  simp only [List.cons_append, List.nil_append]
  rw [sorts_digit (by omega) (by omega), sorts_digit (by omega) (by omega)]
  by_cases h : sortsBefore s t <;> simp only [h, and_true, and_false, or_false] <;> omega

theorem sorts_four {a b : Nat} (ha : a < 10000) (hb : b < 10000) (s t : List Byte) :
    sortsBefore (four a ++ s) (four b ++ t) ↔ a < b ∨ a = b ∧ sortsBefore s t := by
  have e : ∀ n, four n = two (n / 100) ++ two n := fun n => rfl
  have e' : ∀ n, two n = two (n % 100) := by
    intro n
    rw [two_eq, two_eq]
    rw [show n % 100 / 10 % 10 = n / 10 % 10 by omega, show n % 100 % 10 = n % 10 by omega]
  rw [e, e, List.append_assoc, List.append_assoc, sorts_two (by omega) (by omega), e' a, e' b, sorts_two (by omega) (by omega)]
  by_cases h : sortsBefore s t <;> simp only [h, and_true, and_false, or_false] <;> omega

/-- The stamp after the year. -/
def rest (w : When) : List Byte := bytes! "-" ++ (two w.mon ++ (bytes! "-" ++ (two w.mday ++ (bytes! " " ++ (two w.hour ++ (bytes! ":" ++ (two w.min ++ (bytes! ":" ++ (two w.sec ++ [])))))))))

theorem stamp_rest (w : When) : stamp w.year w.mon w.mday w.hour w.min w.sec = (if w.year < 0 then bytes! "-" else []) ++ (four w.year.natAbs ++ rest w) := by
  simp [stamp, rest]

theorem sorts_rest {a b : When} {ta tb : Tm} (ha : a.Is ta) (hb : b.Is tb) :
    sortsBefore (rest a) (rest b) ↔ (a.mon < b.mon ∨ a.mon = b.mon ∧ (a.mday < b.mday ∨ a.mday = b.mday ∧ (a.hour < b.hour ∨ a.hour = b.hour ∧
    (a.min < b.min ∨ a.min = b.min ∧ a.sec < b.sec)))) := by
  obtain ⟨-, -, a1, a2, a3, a4, a5, a6, a7⟩ := ha
  obtain ⟨-, -, b1, b2, b3, b4, b5, b6, b7⟩ := hb
  unfold rest
  rw [sorts_self, sorts_two (by omega) (by omega), sorts_self, sorts_two (by omega) (by omega), sorts_self, sorts_two (by omega) (by omega), sorts_self,
    sorts_two (by omega) (by omega), sorts_self, sorts_two (by omega) (by omega)]
  simp [sortsBefore]

/-- C232: time stamps of the years 0 to 9999 sort like the times, so that sorted lines of a log are in the order of time. -/
theorem stamps_sort (a b : When) (ta tb : Tm) (ha : a.Is ta) (hb : b.Is tb) (ya : 0 ≤ a.year ∧ a.year ≤ 9999) (yb : 0 ≤ b.year ∧ b.year ≤ 9999)
    (buffer cbuf : List Byte) (h1 : buffer.length = 32) (h2 : cbuf.length = 32) :
    ∃ s t, log_timestamp buffer cbuf ta = .ok s ∧ log_timestamp buffer cbuf tb = .ok t ∧ (sortsBefore s t ↔ a.before b) := by
  refine ⟨_, _, log_timestamp_correct ta _ _ _ _ _ _ ha (by omega) buffer cbuf h1 h2, log_timestamp_correct tb _ _ _ _ _ _ hb (by omega) buffer cbuf h1 h2, ?_⟩
  rw [stamp_rest, stamp_rest, if_neg (by omega), if_neg (by omega), List.nil_append, List.nil_append, sorts_four (by omega) (by omega), sorts_rest ha hb]
  unfold When.before
  rw [show (a.year.natAbs < b.year.natAbs) ↔ a.year < b.year by omega, show (a.year.natAbs = b.year.natAbs) ↔ a.year = b.year by omega]

/-- New Year. -/
example : (When.mk 2023 12 31 23 59 59).Is ⟨123, 11, 31, 23, 59, 59⟩ ∧ (When.mk 2024 1 1 0 0 0).Is ⟨124, 0, 1, 0, 0, 0⟩ ∧ (When.mk 2023 12 31 23 59 59).before (When.mk 2024 1 1 0 0 0) := by
  unfold When.Is IsTm When.before
  decide

theorem two_inj {a b : Nat} (ha : a < 100) (hb : b < 100) : two a = two b ↔ a = b := by
  rw [two_eq, two_eq]
  simp only [List.cons.injEq, and_true]
  rw [digit_eq (by omega) (by omega), digit_eq (by omega) (by omega)]
  omega

theorem four_inj (a b : Nat) : four a = four b ↔ a % 10000 = b % 10000 := by
  have e : ∀ n, four n = two (n / 100) ++ two n := fun n => rfl
  rw [e, e, two_eq, two_eq, two_eq, two_eq]
  simp only [List.cons_append, List.nil_append, List.cons.injEq, and_true]
  rw [digit_eq (by omega) (by omega), digit_eq (by omega) (by omega), digit_eq (by omega) (by omega), digit_eq (by omega) (by omega)]
  omega

theorem rest_inj {a b : When} {ta tb : Tm} (ha : a.Is ta) (hb : b.Is tb) :
    rest a = rest b ↔ a.mon = b.mon ∧ a.mday = b.mday ∧ a.hour = b.hour ∧ a.min = b.min ∧ a.sec = b.sec := by
  obtain ⟨-, -, a1, a2, a3, a4, a5, a6, a7⟩ := ha
  obtain ⟨-, -, b1, b2, b3, b4, b5, b6, b7⟩ := hb
  have l : ∀ x y : Nat, (two x).length = (two y).length := fun _ _ => rfl
  have cut : ∀ {x y : Nat} {s t : List Byte}, x < 100 → y < 100 → (two x ++ s = two y ++ t ↔ x = y ∧ s = t) := by
    intro x y s t hx hy
    rw [← two_inj hx hy]
    exact ⟨fun h => List.append_inj h (l _ _), fun h => by rw [h.1, h.2]⟩
  unfold rest
  rw [List.append_cancel_left_eq, cut (by omega) (by omega), List.append_cancel_left_eq, cut (by omega) (by omega), List.append_cancel_left_eq, cut (by omega) (by omega),
    List.append_cancel_left_eq, cut (by omega) (by omega), List.append_cancel_left_eq, cut (by omega) (by omega)]
  simp

theorem four_head (n : Nat) : ∃ k s, k < 10 ∧ four n = BitVec.ofNat 8 (48 + k) :: s :=
  ⟨n / 100 / 10 % 10, _, by omega, by rw [show four n = two (n / 100) ++ two n from rfl, two_eq]; rfl⟩

/-- C232: which times have the same stamp: those that agree but for multiples of 10000 years, before or after the year 0. -/
theorem stamps_same (a b : When) (ta tb : Tm) (ha : a.Is ta) (hb : b.Is tb) (ya : a.year ≤ 2147483647) (yb : b.year ≤ 2147483647)
    (buffer cbuf : List Byte) (h1 : buffer.length = 32) (h2 : cbuf.length = 32) :
    log_timestamp buffer cbuf ta = log_timestamp buffer cbuf tb ↔
      (a.year < 0 ↔ b.year < 0) ∧ a.year.natAbs % 10000 = b.year.natAbs % 10000 ∧ a.mon = b.mon ∧ a.mday = b.mday ∧ a.hour = b.hour ∧ a.min = b.min ∧ a.sec = b.sec := by
  rw [log_timestamp_correct ta _ _ _ _ _ _ ha ya buffer cbuf h1 h2, log_timestamp_correct tb _ _ _ _ _ _ hb yb buffer cbuf h1 h2, stamp_rest, stamp_rest]
  rw [← rest_inj ha hb, ← four_inj]
  have hl : (four a.year.natAbs).length = (four b.year.natAbs).length := rfl
  have key : ∀ (n : Nat) (s : List Byte) (m : Nat) (t : List Byte), bytes! "-" ++ (four n ++ s) ≠ four m ++ t := by
    intro n s m t h
    obtain ⟨k, u, hk, e⟩ := four_head m
    rw [e] at h
    have h' : (45 : Byte) = BitVec.ofNat 8 (48 + k) := by
      injection h
    have h45 : (45 : Byte).toNat = 45 := rfl
    rw [h', BitVec.toNat_ofNat] at h45
    omega
  constructor
  · intro h
    injection h with h
    by_cases x : a.year < 0 <;> by_cases y : b.year < 0
    · rw [if_pos x, if_pos y, List.append_cancel_left_eq] at h
      exact ⟨by simp [x, y], List.append_inj h hl⟩
    · rw [if_pos x, if_neg y] at h
      exact absurd h (key _ _ _ _)
    · rw [if_neg x, if_pos y] at h
      exact absurd h.symm (key _ _ _ _)
    · rw [if_neg x, if_neg y] at h
      exact ⟨by simp [x, y], List.append_inj h hl⟩
  · rintro ⟨h, h3, h4⟩
    rw [h3, h4]
    by_cases x : a.year < 0
    · rw [if_pos x, if_pos (h.1 x)]
    · rw [if_neg x, if_neg fun y => x (h.2 y)]

/-- C232: (negative) from the year 10000 on, stamps sort before earlier ones: the first second of the year 10000 comes before every
    other time of the years 0 to 9999 but the first second of year 0, whose stamp it has. -/
theorem stamps_wrap (b : When) (tb : Tm) (hb : b.Is tb) (yb : 0 ≤ b.year ∧ b.year ≤ 9999) (buffer cbuf : List Byte) (h1 : buffer.length = 32) (h2 : cbuf.length = 32) :
    ∃ s t, log_timestamp buffer cbuf ⟨8100, 0, 1, 0, 0, 0⟩ = .ok s ∧ log_timestamp buffer cbuf tb = .ok t ∧ (s = t ∨ sortsBefore s t) ∧
      (s = t ↔ b = ⟨0, 1, 1, 0, 0, 0⟩) := by
  have ha : (When.mk 10000 1 1 0 0 0).Is ⟨8100, 0, 1, 0, 0, 0⟩ := by unfold When.Is IsTm; decide
  have hz : (When.mk 0 1 1 0 0 0).Is ⟨-1900, 0, 1, 0, 0, 0⟩ := by unfold When.Is IsTm; decide
  have e := (stamps_same _ _ _ _ ha hz (by decide) (by decide) buffer cbuf h1 h2).2 (by decide)
  obtain ⟨s, t, e1, e2, e3⟩ := stamps_sort _ b _ tb hz hb (by decide) yb buffer cbuf h1 h2
  have e4 := stamps_same _ b _ tb hz hb (by decide) (by omega) buffer cbuf h1 h2
  have e5 : s = t ↔ b = ⟨0, 1, 1, 0, 0, 0⟩ := by
    rw [e1, e2] at e4
    have : s = t ↔ (Except.ok s : C (List Byte)) = Except.ok t := ⟨fun h => by rw [h], fun h => by injection h⟩
    rw [this, e4]
    obtain ⟨y, m, d, h, mi, se⟩ := b
    simp only at yb ⊢
    simp only [When.mk.injEq]
    omega
  refine ⟨s, t, by rw [e, e1], e2, ?_, e5⟩
  by_cases hst : s = t
  · exact .inl hst
  · refine .inr (e3.2 ?_)
    have hne : ¬ b = ⟨0, 1, 1, 0, 0, 0⟩ := fun h => hst (e5.2 h)
    obtain ⟨y, m, d, h, mi, se⟩ := b
    obtain ⟨-, -, b1, b2, b3, b4, b5, b6, b7⟩ := hb
    simp only [When.mk.injEq] at hne
    unfold When.before
    simp only at *
    omega

/-- C232: before the year 0 the years sort backwards. -/
theorem stamps_negative (a b : When) (ta tb : Tm) (ha : a.Is ta) (hb : b.Is tb) (ya : -9999 ≤ a.year ∧ a.year < 0) (yb : -9999 ≤ b.year ∧ b.year < 0) (hy : a.year ≠ b.year)
    (buffer cbuf : List Byte) (h1 : buffer.length = 32) (h2 : cbuf.length = 32) :
    ∃ s t, log_timestamp buffer cbuf ta = .ok s ∧ log_timestamp buffer cbuf tb = .ok t ∧ (sortsBefore s t ↔ b.before a) := by
  refine ⟨_, _, log_timestamp_correct ta _ _ _ _ _ _ ha (by omega) buffer cbuf h1 h2, log_timestamp_correct tb _ _ _ _ _ _ hb (by omega) buffer cbuf h1 h2, ?_⟩
  rw [stamp_rest, stamp_rest, if_pos ya.2, if_pos yb.2, sorts_self, sorts_four (by omega) (by omega)]
  unfold When.before
  constructor
  · rintro (h | h) <;> omega
  · rintro (h | h) <;> omega

/-- C232: the first 10 characters, that a buffer of 11 bytes has room for, are the date: the same for two times of the years 0 to 9999
    exactly if they are on the same day. -/
theorem stamps_date (a b : When) (ta tb : Tm) (ha : a.Is ta) (hb : b.Is tb) (ya : 0 ≤ a.year ∧ a.year ≤ 9999) (yb : 0 ≤ b.year ∧ b.year ≤ 9999)
    (buffer cbuf : List Byte) (h1 : buffer.length = 11) (h2 : cbuf.length = 32) :
    timestamp buffer 11 cbuf ta = timestamp buffer 11 cbuf tb ↔ a.year = b.year ∧ a.mon = b.mon ∧ a.mday = b.mday := by
  have hne : buffer ≠ [] := by rintro rfl; simp at h1
  rw [timestamp_correct ta _ _ _ _ _ _ ha (by omega) buffer 11 hne (by omega) cbuf h2, timestamp_correct tb _ _ _ _ _ _ hb (by omega) buffer 11 hne (by omega) cbuf h2]
  rw [if_neg (by omega), if_neg (by omega)]
  have ht : ∀ w : When, 0 ≤ w.year → (stamp w.year w.mon w.mday w.hour w.min w.sec).take (11 - 1) = four w.year.natAbs ++ (bytes! "-" ++ (two w.mon ++ (bytes! "-" ++ (two w.mday ++ [])))) := by
    intro w hw
    rw [stamp_rest, if_neg (by omega)]
    rfl
  rw [ht a ya.1, ht b yb.1]
  obtain ⟨-, -, a1, a2, a3, a4, a5, a6, a7⟩ := ha
  obtain ⟨-, -, b1, b2, b3, b4, b5, b6, b7⟩ := hb
  have l : ∀ x y : Nat, (two x).length = (two y).length := fun _ _ => rfl
  have l4 : ∀ x y : Nat, (four x).length = (four y).length := fun _ _ => rfl
  constructor
  · intro h
    injection h with h
    injection h with h
    unfold put at h
    have h := (List.append_inj h (by simp [two_eq, show ∀ n, four n = two (n / 100) ++ two n from fun _ => rfl])).1
    rw [List.append_cancel_left_eq] at h
    have h := (List.append_inj' h rfl).1
    obtain ⟨x1, h⟩ := List.append_inj h (l4 _ _)
    rw [List.append_cancel_left_eq] at h
    obtain ⟨x2, h⟩ := List.append_inj h (l _ _)
    rw [List.append_cancel_left_eq] at h
    obtain ⟨x3, h⟩ := List.append_inj h (l _ _)
    have x1 := (four_inj _ _).1 x1
    have x2 := (two_inj (by omega) (by omega)).1 x2
    have x3 := (two_inj (by omega) (by omega)).1 x3
    omega
  · rintro ⟨x, y, z⟩
    rw [x, y, z]

end Ulz.Props

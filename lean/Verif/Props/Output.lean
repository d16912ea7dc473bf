import Verif.Proofs.Output
/-! Properties C65, C77 and C95: time stamps, logging, printing to descriptors and new strings. -/
namespace Ulz.Props
open Ulz.Output Ulz.Output.Spec Ulz.Format Ulz.Format.Spec Ulz.Stringptr Ulz.Stringptr.Spec

/-! ### C65 -/

/-- C65: the time stamp of every calendar time whose year fits an `int`, also before the year 0 (of the year the sign and the four
    lowest digits are shown), cut to the size of the buffer. 20 bytes have room for all of it, 21 for negative years. (`bufsize` 0
    counts as 1, if there is a byte.) -/
theorem timestamp_correct (tm : Tm) (year : Int) (mon mday hour min sec : Nat) (htm : IsTm tm year mon mday hour min sec) (hy : year ≤ 2147483647)
    (buffer : List Byte) (bufsize : Nat) (h1 : buffer ≠ []) (h2 : bufsize ≤ buffer.length) (cbuf : List Byte) (hc : cbuf.length = 32) :
    timestamp buffer bufsize cbuf tm =
      .ok (put buffer 0 ((stamp year mon mday hour min sec).take (bufsize - 1) ++ [0]), Nat.min (if year < 0 then 20 else 19) (bufsize - 1)) := by
  obtain ⟨rfl, hyr, hm1, hm2, hd1, hd2, hh, hmi, hs⟩ := htm
  unfold timestamp addInt
  simp only
  rw [if_pos (by omega), pure_eq_ok, ok_bind, if_pos (by omega), pure_eq_ok, ok_bind, show (1900 : Int) + (year - 1900) = year by omega, show (mon : Int) - 1 + 1 = mon by omega]
  have := vsnprintf_correct _ [] stampItems false stamp_parses (some buffer) bufsize (fun b hb => by injection hb with e; rw [← e]; exact h2)
    [intArg year, intArg mon, intArg mday, intArg hour, intArg min, intArg sec] cbuf hc
  rw [stamp_render year mon mday hour min sec (by omega) (by omega) (by omega) (by omega) (by omega) (by omega)] at this
  simp only [Result] at this
  rw [if_neg h1] at this
  rw [this]
  simp only [ok_bind, pure_eq_ok, stamp_length]
  congr 2
  show (((Nat.min (if year < 0 then 20 else 19) (bufsize - 1) : Nat) : Int) % 2 ^ 64).toNat = _
  have h3 : Nat.min (if year < 0 then 20 else 19) (bufsize - 1) ≤ (if year < 0 then 20 else 19) := Nat.min_le_left _ _
  have h4 : (if year < 0 then 20 else 19) ≤ 20 := by split <;> omega
  omega

/-- C65: (negative) the limit on the year is exact: a later year, which localtime_r can store, makes an `int` overflow. -/
theorem timestamp_overflow_iff (tm : Tm) (year : Int) (mon mday hour min sec : Nat) (htm : IsTm tm year mon mday hour min sec)
    (buffer : List Byte) (bufsize : Nat) (h1 : buffer ≠ []) (h2 : bufsize ≤ buffer.length) (cbuf : List Byte) (hc : cbuf.length = 32) :
    timestamp buffer bufsize cbuf tm = .error .overflow ↔ 2147483647 < year := by
  constructor
  · intro h
    by_cases hy : year ≤ 2147483647
    · rw [timestamp_correct tm year mon mday hour min sec htm hy buffer bufsize h1 h2 cbuf hc] at h
      cases h
    · omega
  · intro hy
    obtain ⟨rfl, _⟩ := htm
    unfold timestamp addInt
    simp only
    rw [if_neg (by omega), error_bind]

-- The last year a 32-bit `tm_year` can hold.
example : timestamp (List.replicate 20 0) 20 (List.replicate 32 0) ⟨2147483647, 0, 1, 0, 0, 0⟩ = .error .overflow :=
  (timestamp_overflow_iff ⟨2147483647, 0, 1, 0, 0, 0⟩ 2147485547 1 1 0 0 0 (by unfold IsTm; decide) _ 20 (by decide) (by decide) _ (by decide)).2
    (by decide)

/-- C65: for years up to 9999 the digits shown are those of the year. -/
theorem timestamp_year (year : Nat) (h : year ≤ 9999) : ∃ a b c d, a < 10 ∧ b < 10 ∧ c < 10 ∧ d < 10 ∧ year = ((a * 10 + b) * 10 + c) * 10 + d ∧
    four year = [BitVec.ofNat 8 (48 + a), BitVec.ofNat 8 (48 + b), BitVec.ofNat 8 (48 + c), BitVec.ofNat 8 (48 + d)] := by
  refine ⟨year / 1000, year / 100 % 10, year / 10 % 10, year % 10, by omega, by omega, by omega, by omega, by omega, ?_⟩
  have e : year / 100 / 10 % 10 = year / 1000 := by omega
  simp [four, two, e]

/-- C65: log_timestamp writes the whole stamp. -/
theorem log_timestamp_correct (tm : Tm) (year : Int) (mon mday hour min sec : Nat) (htm : IsTm tm year mon mday hour min sec) (hy : year ≤ 2147483647)
    (buffer cbuf : List Byte) (hb : buffer.length = 32) (hc : cbuf.length = 32) :
    log_timestamp buffer cbuf tm = .ok (stamp year mon mday hour min sec) := by
  unfold log_timestamp
  rw [timestamp_correct tm year mon mday hour min sec htm hy buffer 32 (by intro e; simp [e] at hb) (by omega) cbuf hc]
  simp only [ok_bind]
  have hl := stamp_length year mon mday hour min sec
  have h20 : (if year < 0 then 20 else 19) ≤ 20 := by split <;> omega
  apply log_puts_spec
  refine ⟨?_, ?_⟩
  · simp only [hl]
    exact Nat.min_eq_left (by omega)
  · rw [List.take_of_length_le (by omega), put_zero]
    simp only
    rw [List.append_assoc]
    exact List.prefix_append ..

example (cbuf : List Byte) (hc : cbuf.length = 32) (buffer : List Byte) (hb : buffer.length = 20) :
    timestamp buffer 20 cbuf ⟨124, 1, 29, 23, 59, 60⟩ = .ok (bytes! "2024-02-29 23:59:60" ++ [0], 19) := by
  have := timestamp_correct ⟨124, 1, 29, 23, 59, 60⟩ 2024 2 29 23 59 60 (by unfold IsTm; decide) (by decide) buffer 20
    (by intro e; simp [e] at hb) (by omega) cbuf hc
  rw [this, put_zero, List.drop_eq_nil_of_le (by rw [hb]; decide)]
  rfl

/-- 44 BC, with the last second cut off. -/
example (cbuf : List Byte) (hc : cbuf.length = 32) (buffer : List Byte) (hb : buffer.length = 20) :
    timestamp buffer 20 cbuf ⟨-1943, 2, 15, 12, 0, 0⟩ = .ok (bytes! "-0043-03-15 12:00:0" ++ [0], 19) := by
  have := timestamp_correct ⟨-1943, 2, 15, 12, 0, 0⟩ (-43) 3 15 12 0 0 (by unfold IsTm; decide) (by decide) buffer 20
    (by intro e; simp [e] at hb) (by omega) cbuf hc
  rw [this, put_zero, List.drop_eq_nil_of_le (by rw [hb]; decide)]
  rfl

/-! ### C77 -/

/-- C77: log_put writes the texts of its arguments, one after the other, and a newline. -/
theorem log_put_correct (vs : List Vario) (ts : List (List Byte)) (h : Texts vs ts) (bufs : Nat → List Byte) (hb : ∀ i, (bufs i).length = 32) :
    log_put bufs vs = .ok (ts.flatten ++ bytes! "\n") := log_put_spec h bufs hb

example (bufs : Nat → List Byte) (hb : ∀ i, (bufs i).length = 32) :
    log_put bufs [.stringptr (some ⟨bytes! "x = 4711", 4⟩), .int (BitVec.ofInt 32 (-5)), .charstar none, .charstar (some (bytes! "!" ++ [0]))] = .ok (bytes! "x = -5!\n") :=
  log_put_correct _ [bytes! "x = ", bytes! "-5", [], bytes! "!"]
    (.cons (.str ⟨rfl, bytes! "4711", rfl⟩) (.cons (by have h : Text (.int (BitVec.ofInt 32 (-5))) _ := .int
                                                       have e : Numbers.Spec.decInt (BitVec.ofInt 32 (-5)).toInt = bytes! "-5" := by decide +kernel
                                                       rwa [e] at h) (.cons .nullc (.cons (.chars (s := bytes! "!") (junk := []) (by decide)) .nil)))) bufs hb

/-- C77: log_puterror writes the message (nothing for NULL), a colon and a space, the system's text, and a newline. -/
theorem log_puterror_correct (err : Option (List Byte)) (e m : List Byte) (j : List Byte) (he : err = none ∧ e = [] ∨ ∃ j, err = some (e ++ 0 :: j) ∧ 0 ∉ e) (hm : 0 ∉ m) :
    log_puterror err (m ++ 0 :: j) = .ok (e ++ bytes! ": " ++ m ++ bytes! "\n") := by
  have h1 : log_putc err = .ok e := by
    rcases he with ⟨rfl, rfl⟩ | ⟨j, rfl, h0⟩
    · rfl
    · exact log_putc_spec h0
  unfold log_puterror
  rw [h1, log_putc_spec hm]
  simp only [ok_bind]
  rw [log_puts_spec (s := bytes! ": ") ⟨rfl, [0], rfl⟩]
  rfl

example : log_puterror (some (bytes! "open" ++ [0])) (bytes! "No such file" ++ [0]) = .ok (bytes! "open: No such file\n") :=
  log_puterror_correct _ (bytes! "open") (bytes! "No such file") [] (Or.inr ⟨[], rfl, by decide⟩) (by decide)

/-! ### C95 -/

/-- C95: ulz_printf and ulz_fprintf write the first 4095 characters of the text. -/
theorem fprintf_correct (s junk : List Byte) (is : List Item) (hp : Parses s is false) (args : List Arg) (t : List Byte) (ht : render 0 is false args = .text t)
    (dest cbuf : List Byte) (hd : dest.length = 4096) (hc : cbuf.length = 32) :
    ulz_fprintf dest cbuf (s ++ 0 :: junk) args = .ok (t.take 4095) := by
  have := vsnprintf_correct s junk is false hp (some dest) 4096 (fun b hb => by injection hb with e; rw [← e]; omega) args cbuf hc
  rw [ht] at this
  simp only [Result] at this
  rw [if_neg (by intro h; subst h; simp at hd)] at this
  unfold ulz_fprintf
  rw [this]
  simp only [ok_bind]
  by_cases h0 : ((min t.length (4096 - 1) : Nat) : Int) ≠ 0
  · rw [if_pos h0]
    have e : (((min t.length (4096 - 1) : Nat) : Int) % 2 ^ 64).toNat = (t.take 4095).length := by rw [List.length_take]; omega
    rw [e, put_zero, List.append_assoc]
    exact rdN_zero_append _ _
  · rw [if_neg h0]
    have : t = [] := by apply List.eq_nil_of_length_eq_zero; omega
    rw [this]; rfl

/-- C95: with an unsupported conversion they read behind their buffer. -/
theorem fprintf_fails (s junk : List Byte) (is : List Item) (hp : Parses s is true) (args : List Arg) (t : List Byte) (ht : render 0 is false args = .text t)
    (dest cbuf : List Byte) (hd : dest.length = 4096) (hc : cbuf.length = 32) :
    ulz_fprintf dest cbuf (s ++ 0 :: junk) args = .error .oobRead := by
  have := vsnprintf_fails s junk is hp (some dest) 4096 (fun b hb => by injection hb with e; rw [← e]; omega) args cbuf hc t ht
  unfold ulz_fprintf
  rw [this]
  simp only [ok_bind, Option.map_some]
  rw [if_pos (by decide)]
  unfold rdN
  rw [if_neg]
  rw [put_length (by rw [List.length_take]; omega), hd]
  decide

/-- C95: stringptr_format returns the first 999 characters of the text, terminated, or NULL. -/
theorem stringptr_format_correct (a : Alloc) (s junk : List Byte) (is : List Item) (hp : Parses s is false) (args : List Arg) (t : List Byte) (ht : render 0 is false args = .text t)
    (cbuf : List Byte) (hc : cbuf.length = 32) :
    if a.isNone then stringptr_format a cbuf (some (s ++ 0 :: junk)) args = .ok none
    else ∃ p, stringptr_format a cbuf (some (s ++ 0 :: junk)) args = .ok (some p) ∧ Holds p (t.take 999) ∧ (t.take 999) ++ [0] <+: p.buf := by
  cases a with
  | none => rfl
  | some f =>
    obtain ⟨b, h1, h2⟩ := new_spec (f := f) (n := 1000) (by decide)
    have := vsnprintf_correct s junk is false hp (some (b ++ [0])) 1000 (fun b' hb => by injection hb with e; rw [← e]; simp; omega) args cbuf hc
    rw [ht] at this
    simp only [Result] at this
    rw [if_neg (by simp)] at this
    have e : (((min t.length (1000 - 1) : Nat) : Int) % 2 ^ 64).toNat = (t.take 999).length := by rw [List.length_take]; omega
    refine ⟨⟨put (b ++ [0]) 0 (t.take (1000 - 1) ++ [0]), (t.take 999).length⟩, ?_, ⟨rfl, ?_⟩, ?_⟩
    · unfold stringptr_format
      rw [h1]
      simp only [ok_bind]
      rw [this]
      simp only [ok_bind, e]
      rfl
    · simp only
      rw [put_zero, List.append_assoc]
      exact List.prefix_append ..
    · simp only
      rw [put_zero]
      exact List.prefix_append ..

/-- C95: with an unsupported conversion it returns a string of the largest size there is. -/
theorem stringptr_format_fails (f : Nat → Byte) (s junk : List Byte) (is : List Item) (hp : Parses s is true) (args : List Arg) (t : List Byte) (ht : render 0 is false args = .text t)
    (cbuf : List Byte) (hc : cbuf.length = 32) :
    ∃ p, stringptr_format (some f) cbuf (some (s ++ 0 :: junk)) args = .ok (some p) ∧ p.size = 2 ^ 64 - 1 ∧ p.buf.length = 1001 := by
  obtain ⟨b, h1, h2⟩ := new_spec (f := f) (n := 1000) (by decide)
  have := vsnprintf_fails s junk is hp (some (b ++ [0])) 1000 (fun b' hb => by injection hb with e; rw [← e]; simp; omega) args cbuf hc t ht
  refine ⟨⟨put (b ++ [0]) 0 (t.take (1000 - 1)), 2 ^ 64 - 1⟩, ?_, rfl, ?_⟩
  · unfold stringptr_format
    rw [h1]
    simp only [ok_bind]
    rw [this]
    rfl
  · simp only
    rw [put_length (by rw [List.length_take]; simp; omega)]
    simp [h2]

example (dest cbuf : List Byte) (hd : dest.length = 4096) (hc : cbuf.length = 32) : ulz_fprintf dest cbuf (bytes! "a%sb" ++ [0]) [.str (some (bytes! "--" ++ [0]))] = .ok (bytes! "a--b") :=
  fprintf_correct (bytes! "a%sb") [] [.lit (ch 'a'), .conv [] .s, .lit (ch 'b')] ⟨by simp [Item.Ok, PrecsOk]; decide, by simp only [Bool.false_eq_true, if_false]; decide⟩ _ (bytes! "a--b") (by decide) dest cbuf hd hc

example (dest cbuf : List Byte) (hd : dest.length = 4096) (hc : cbuf.length = 32) : ulz_fprintf dest cbuf (bytes! "100%" ++ [0]) [] = .error .oobRead :=
  fprintf_fails (bytes! "100%") [] [.lit (ch '1'), .lit (ch '0'), .lit (ch '0')] ⟨by simp [Item.Ok]; decide, [0], rfl, .char (by decide)⟩ [] (bytes! "100") rfl dest cbuf hd hc

end Ulz.Props

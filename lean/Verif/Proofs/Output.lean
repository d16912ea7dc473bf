import Verif.Spec.Output
import Verif.Props.Format
import Verif.Proofs.Stringptr
/-! Lemmas about logging and time stamps. -/
namespace Ulz.Output
open Format Format.Spec Numbers Numbers.Spec Stringptr Stringptr.Spec Spec

theorem rdN_zero_append (a b : List Byte) : rdN (a ++ b) 0 a.length = .ok a := by
  unfold rdN
  rw [if_pos (by simp)]
  simp

theorem log_puts_spec {p : SP} {s : List Byte} (h : Holds p s) : log_puts (some p) = .ok s := by
  obtain ⟨h1, r, h2⟩ := h
  unfold log_puts
  simp only
  by_cases h0 : p.size = 0
  · rw [if_pos h0]
    rw [h1] at h0
    rw [List.eq_nil_of_length_eq_zero h0]; rfl
  · rw [if_neg h0, h1, ← h2]
    exact rdN_zero_append s r

theorem log_putc_spec {s junk : List Byte} (h : 0 ∉ s) : log_putc (some (s ++ 0 :: junk)) = .ok s := by
  unfold log_putc
  simp only
  rw [Hex.strlen_cstr s junk h]
  simp only [ok_bind]
  exact log_puts_spec ⟨rfl, List.prefix_append ..⟩

theorem dec_no_zero (n : Nat) : 0 ∉ dec n := by
  unfold dec
  intro h
  obtain ⟨d, h1, h2⟩ := List.mem_map.1 h
  have := digitsOf_lt (by decide) d h1
  have key : ∀ d : Fin 10, BitVec.ofNat 8 (48 + d.1) ≠ 0 := by decide
  exact key ⟨d, this⟩ h2

theorem decInt_no_zero (x : Int) : 0 ∉ decInt x := by
  unfold decInt
  split
  · intro h
    rcases List.mem_cons.1 h with h | h
    · revert h; decide
    · exact dec_no_zero _ h
  · exact dec_no_zero _

theorem putd_tail (buf s : List Byte) (h : 0 ∉ s) :
    (do rdN ((put buf 0 (s ++ [0])).drop 0) 0 (← Hex.strlen ((put buf 0 (s ++ [0])).drop 0))) = (.ok s : C (List Byte)) := by
  rw [List.drop_zero, put_zero, List.append_assoc]
  have := Hex.strlen_cstr s (buf.drop (s ++ [0]).length) h
  rw [List.singleton_append, this]
  simp only [ok_bind]
  exact rdN_zero_append _ _

theorem log_putd_signed (buf : List Byte) (hb : buf.length = 32) (v : BitVec 64) : log_putd buf v true = .ok (decInt v.toInt) := by
  unfold log_putd
  have h := Props.nts_signed v buf (by have := (Props.decimal_fits v).2; omega)
  simp only [if_true]
  rw [h]
  simp only [ok_bind]
  exact putd_tail buf _ (decInt_no_zero _)

theorem log_putd_unsigned (buf : List Byte) (hb : buf.length = 32) (v : BitVec 64) : log_putd buf v false = .ok (dec v.toNat) := by
  unfold log_putd
  have h := Props.nts_unsigned v buf (by have := (Props.decimal_fits v).1; omega)
  simp only [Bool.false_eq_true, if_false]
  rw [h]
  simp only [ok_bind]
  exact putd_tail buf _ (dec_no_zero _)

theorem put1_spec (buf : List Byte) (hb : buf.length = 32) {v : Vario} {t : List Byte} (h : Text v t) : put1 buf v = .ok t := by
  cases h with
  | null => rfl
  | str h => exact log_puts_spec h
  | nullc => rfl
  | chars h => exact log_putc_spec h
  | int =>
    rename_i v
    have e : (v.signExtend 64).toInt = v.toInt := BitVec.toInt_signExtend_of_le (by omega)
    unfold put1
    simp only
    rw [log_putd_signed buf hb, e]
  | unsigned =>
    rename_i v
    unfold put1
    simp only
    rw [log_putd_unsigned buf hb, zext_toNat]
  | long => exact log_putd_signed buf hb _
  | ulong => exact log_putd_unsigned buf hb _
  | other => rfl

theorem log_put_spec {vs : List Vario} {ts : List (List Byte)} (h : Texts vs ts) : ∀ (bufs : Nat → List Byte), (∀ i, (bufs i).length = 32) → 
    log_put bufs vs = .ok (ts.flatten ++ bytes! "\n") := by
  induction h with
  | nil => intro bufs _; rfl
  | cons h _ ih =>
    intro bufs hb
    unfold log_put
    rw [put1_spec _ (hb 0) h]
    simp only [ok_bind]
    rw [ih (fun i => bufs (i + 1)) (fun i => hb (i + 1))]
    simp

/-! ### Time stamps -/

theorem toInt_ofInt {x : Int} (h : -2147483648 ≤ x ∧ x ≤ 2147483647) : (BitVec.ofInt 32 x).toInt = x := by
  rw [BitVec.toInt_ofInt]
  exact Int.bmod_eq_of_le (by omega) (by omega)

theorem padded_two (n : Nat) : (padded 10 2 n).map (symbol false) = two n := by
  have e : padded 10 2 n = [n / 10 % 10, n % 10] := by
    simp [padded, List.range, List.range.loop]
  have h1 : n / 10 % 10 < 10 := Nat.mod_lt _ (by decide)
  have h2 : n % 10 < 10 := Nat.mod_lt _ (by decide)
  rw [e]
  simp [symbol, h1, h2, two]

theorem padded_four (n : Nat) : (padded 10 4 n).map (symbol false) = four n := by
  have e : padded 10 4 n = [n / 1000 % 10, n / 100 % 10, n / 10 % 10, n % 10] := by
    simp [padded, List.range, List.range.loop]
  have h1 : n / 10 % 10 < 10 := Nat.mod_lt _ (by decide)
  have h2 : n % 10 < 10 := Nat.mod_lt _ (by decide)
  have h3 : n / 100 % 10 < 10 := Nat.mod_lt _ (by decide)
  have h4 : n / 1000 % 10 < 10 := Nat.mod_lt _ (by decide)
  have e2 : n / 100 / 10 = n / 1000 := by omega
  rw [e]
  simp [symbol, h1, h2, h3, h4, two, four, e2]

theorem numText_nat (w n : Nat) (hw : w ≠ 0) : numText 10 (by decide) false w (n : Int) = (padded 10 w n).map (symbol false) := by
  unfold numText
  rw [if_neg (by omega), if_neg hw]; rfl

theorem convText_nat (w n : Nat) (hw : w ≠ 0) (hw' : w < 10) (hn : (n : Int) ≤ 2147483647) (x : Int) (hx : x = n) (args : List Arg) :
    convText (pend [[w]] 0) .d (intArg x :: args) = .text ((padded 10 w n).map (symbol false)) 0 args := by
  subst hx
  have e : pend [[w]] 0 = w := by
    show (w + 0) % 2 ^ 64 = w
    omega
  rw [e, convText_dec w (by omega) .d (by simp) _ args (n : Int) (by unfold intArg number; simp only; rw [toInt_ofInt (by omega)]), numText_nat w n hw]

/-- The items of the format of timestamp. -/
def stampItems : List Item :=
  [.conv [[4]] .d, .lit (ch '-'), .conv [[2]] .d, .lit (ch '-'), .conv [[2]] .d, .lit (ch ' '), .conv [[2]] .d, .lit (ch ':'), .conv [[2]] .d, .lit (ch ':'), .conv [[2]] .d]

theorem stamp_parses : Parses (bytes! "%.4d-%.2d-%.2d %.2d:%.2d:%.2d") stampItems false := by
  refine ⟨?_, ?_⟩
  · have hp : ∀ n, n < 10 → PrecsOk [[n]] := by
      intro n hn ds hds
      rw [List.mem_singleton] at hds
      subst hds
      exact ⟨by simp, by simpa using hn⟩
    have h4 := hp 4 (by decide)
    have h2 := hp 2 (by decide)
    intro i hi
    simp only [stampItems, List.mem_cons, List.not_mem_nil, or_false] at hi
    rcases hi with rfl | rfl | rfl | rfl | rfl | rfl | rfl | rfl | rfl | rfl | rfl <;> first | exact h4 | exact h2 | (constructor <;> decide)
  · simp only [Bool.false_eq_true, if_false]; decide

theorem convText_int (w : Nat) (hw : w ≠ 0) (hw' : w < 10) (x : Int) (hx : -2147483648 ≤ x ∧ x ≤ 2147483647) (args : List Arg) :
    convText (pend [[w]] 0) .d (intArg x :: args) =
      .text ((if x < 0 then [ch '-'] else []) ++ (padded 10 w x.natAbs).map (symbol false)) 0 args := by
  have e : pend [[w]] 0 = w := by
    show (w + 0) % 2 ^ 64 = w
    omega
  rw [e, convText_dec w (by omega) .d (by simp) _ args x (by unfold intArg number; simp only; rw [toInt_ofInt hx])]
  unfold numText
  rw [if_neg hw]

theorem stamp_render (y : Int) (m d h mi s : Nat) (hy : -2147483648 ≤ y ∧ y ≤ 2147483647) (hm : m ≤ 2147483647) (hd : d ≤ 2147483647) (hh : h ≤ 2147483647) (hmi : mi ≤ 2147483647) (hs : s ≤ 2147483647) :
    render 0 stampItems false [intArg y, intArg m, intArg d, intArg h, intArg mi, intArg s] = .text (stamp y m d h mi s) := by
  unfold stampItems
  rw [render, convText_int 4 (by decide) (by decide) y hy _]
  simp only [render]
  rw [convText_nat 2 m (by decide) (by decide) (by omega) _ rfl]
  simp only
  rw [convText_nat 2 d (by decide) (by decide) (by omega) _ rfl]
  simp only
  rw [convText_nat 2 h (by decide) (by decide) (by omega) _ rfl]
  simp only
  rw [convText_nat 2 mi (by decide) (by decide) (by omega) _ rfl]
  simp only
  rw [convText_nat 2 s (by decide) (by decide) (by omega) _ rfl]
  simp only [padded_two, padded_four, Outcome.prepend, Bool.false_eq_true, if_false]
  simp [stamp, ch]

theorem stamp_length (y : Int) (m d h mi s : Nat) : (stamp y m d h mi s).length = if y < 0 then 20 else 19 := by
  unfold stamp; split <;> rfl

end Ulz.Output

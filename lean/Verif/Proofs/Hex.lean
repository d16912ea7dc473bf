import Verif.Model.Hex
import Verif.Spec.Hex
import Verif.Proofs.Base
set_option linter.unusedSimpArgs false
set_option linter.unusedVariables false
namespace Ulz.Hex
open Spec

theorem rd_hextab {i : Nat} (h : i < 16) : rd hextab i = .ok (digit i) := by
  have : ∀ i : Fin 16, rd hextab i = .ok (digit i) := by decide
  exact this ⟨i, h⟩

theorem hval_eq_value : ∀ c : Byte, hval c = value c := by decide +kernel

theorem value_lt {c : Byte} {v : Nat} (h : value c = some v) : v < 16 := by
  unfold value at h; simp only [] at h
  repeat' split at h
  all_goals (first | (injection h; omega) | cases h)

theorem value_digit {n : Nat} (h : n < 16) : value (digit n) = some n := by
  have : ∀ i : Fin 16, value (digit i) = some i.val := by decide
  exact this ⟨n, h⟩

theorem digit_ne_zero {n : Nat} (h : n < 16) : digit n ≠ 0 := by
  have : ∀ i : Fin 16, digit i ≠ 0 := by decide
  exact this ⟨n, h⟩

theorem raw2hexLoop_short : ∀ (s dst : List Byte) (o : Nat), dst.length < o + 2 * s.length + 1 →
    raw2hexLoop dst o s = .error .oobWrite
  | [], dst, o, h => by
    unfold raw2hexLoop wr
    rw [if_neg (by simp at h; omega)]
  | x :: s, dst, o, h => by
    rw [List.length_cons] at h
    unfold raw2hexLoop
    have ht : ∀ n, ∃ c, rd hextab (0xf &&& n) = .ok c := by
      intro n
      have : 0xf &&& n < 16 := Nat.lt_of_le_of_lt Nat.and_le_left (by omega)
      generalize 0xf &&& n = k at this
      exact ⟨_, rd_ok (b := hextab) (i := k) this⟩
    obtain ⟨c1, h1⟩ := ht (x.toNat >>> 4)
    obtain ⟨c2, h2⟩ := ht x.toNat
    rw [h1, h2]
    simp only [ok_bindE]
    by_cases ha : o + 0 < dst.length
    · rw [show wr dst (o + 0) c1 = .ok (dst.set (o + 0) c1) by unfold wr; rw [if_pos ha]]
      simp only [ok_bindE]
      by_cases hb : o + 1 < dst.length
      · rw [show wr (dst.set (o + 0) c1) (o + 1) c2 = .ok ((dst.set (o + 0) c1).set (o + 1) c2) by
          unfold wr; rw [if_pos (by rw [List.length_set]; exact hb)]]
        simp only [ok_bindE]
        exact raw2hexLoop_short s _ _ (by rw [List.length_set, List.length_set]; omega)
      · rw [show wr (dst.set (o + 0) c1) (o + 1) c2 = .error .oobWrite by
          unfold wr; rw [if_neg (by rw [List.length_set]; exact hb)]]
        rfl
    · rw [show wr dst (o + 0) c1 = .error .oobWrite by unfold wr; rw [if_neg ha]]
      rfl

theorem raw2hexLoop_put (b : List Byte) : ∀ (s xs : List Byte) (o : Nat), o = xs.length →
    o + 2 * s.length + 1 ≤ b.length →
    raw2hexLoop (put b 0 xs) o s = .ok (put b 0 (xs ++ text s ++ [0]))
  | [], xs, o, ho, h => by
    simp only [raw2hexLoop, text, List.flatMap_nil, List.append_nil]
    exact wr_put0 ho (by omega)
  | x :: s, xs, o, ho, h => by
    have hx := x.isLt
    simp only [List.length_cons] at h
    have e1 : 15 &&& (x.toNat >>> 4) = x.toNat / 16 := by
      rw [Nat.and_comm, show (15 : Nat) = 2^4 - 1 from rfl, Nat.and_two_pow_sub_one_eq_mod,
        Nat.shiftRight_eq_div_pow]; omega
    have e2 : 15 &&& x.toNat = x.toNat % 16 := by
      rw [Nat.and_comm, show (15 : Nat) = 2^4 - 1 from rfl, Nat.and_two_pow_sub_one_eq_mod]
    simp only [raw2hexLoop, e1, e2]
    rw [rd_hextab (by omega), rd_hextab (by omega)]
    simp only [ok_bind]
    rw [wr_put0 (by omega) (by omega)]
    simp only [ok_bind]
    rw [wr_put0 (by simp; omega) (by omega)]
    simp only [ok_bind]
    rw [raw2hexLoop_put b s _ (o+2) (by simp; omega) (by omega)]
    simp [text]

theorem text_length (s : List Byte) : (text s).length = 2 * s.length := by
  induction s with
  | nil => rfl
  | cons a s ih => simp only [text, List.flatMap_cons, List.length_append, List.length_cons, List.length_nil] at *; omega

theorem text_ne_zero (s : List Byte) : 0 ∉ text s := by
  unfold text
  simp only [List.mem_flatMap, not_exists, not_and, List.mem_cons, List.not_mem_nil, or_false, not_or]
  intro x _
  have := x.isLt
  exact ⟨fun h => digit_ne_zero (n := x.toNat / 16) (by omega) h.symm,
    fun h => digit_ne_zero (n := x.toNat % 16) (by omega) h.symm⟩

theorem strlen_cstr (s junk : List Byte) (h : 0 ∉ s) : strlen (s ++ 0 :: junk) = .ok s.length := by
  induction s with
  | nil => simp [strlen]
  | cons c s ih =>
    simp only [List.mem_cons, not_or] at h
    simp only [List.cons_append, strlen]
    rw [if_neg (fun e => h.1 e.symm), ih h.2]
    simp

/-- The bytes stored for an even number of characters; `none` if a high digit is bad. -/
def pairs : List Byte → Option (List Byte)
  | h :: l :: r => do
    let c ← value h
    let v := match value l with
      | some c' => BitVec.ofNat 8 (c * 16 + c')
      | none => 0xff
    pure (v :: (← pairs r))
  | _ => some []

theorem hex2rawLoop_put (b junk : List Byte) : ∀ (s xs : List Byte) (o : Nat), 0 ∉ s → s.length % 2 = 0 →
    o = xs.length → o + s.length / 2 ≤ b.length →
    hex2rawLoop (put b 0 xs) o (s ++ 0 :: junk) =
      match pairs s with
      | some bs => .ok (put b 0 (xs ++ bs))
      | none => .error .overflow
  | [], xs, o, h0, hev, ho, h => by simp [hex2rawLoop, pairs]
  | [a], xs, o, h0, hev, ho, h => by simp at hev
  | a :: c :: s, xs, o, h0, hev, ho, h => by
    simp only [List.mem_cons, not_or] at h0
    simp only [List.length_cons] at *
    simp only [List.cons_append, hex2rawLoop]
    rw [if_neg (fun e => h0.1 e.symm), hval_eq_value, hval_eq_value]
    cases hv : value a with
    | none => simp [pairs, hv]
    | some v =>
      simp only [ok_bind]
      have hv' := value_lt hv
      have fin : ∀ w : Byte, pairs (a :: c :: s) = (pairs s).map (w :: ·) →
          (do let out ← wr (put b 0 xs) o w
              hex2rawLoop out (o + 1) (s ++ 0 :: junk)) =
            match pairs (a :: c :: s) with
            | some bs => .ok (put b 0 (xs ++ bs))
            | none => .error .overflow := by
        intro w hw
        rw [wr_put0 ho (by omega)]
        simp only [ok_bind]
        rw [hex2rawLoop_put b junk s _ (o+1) h0.2.2 (by omega) (by simp; omega) (by omega), hw]
        cases pairs s <;> simp
      cases hc : value c with
      | none =>
        apply fin
        simp only [pairs, hv, hc]
        cases pairs s <;> simp
      | some w =>
        have := value_lt hc
        apply fin
        simp only [pairs, hv, hc]
        rw [← Nat.shiftLeft_add_eq_or_of_lt (by omega), Nat.shiftLeft_eq]
        cases pairs s <;> simp

theorem pairs_get : ∀ {s bs : List Byte}, pairs s = some bs → ∀ {i : Nat} {c d : Byte}, i % 2 = 0 → s[i]? = some c → s[i + 1]? = some d →
    bs[i / 2]? = some (pairByte c d)
  | [], _, _, _, _, _, _, h, _ => by simp at h
  | [_], _, _, _, _, _, _, _, h => by simp at h
  | a :: e :: s, bs, h, i, c, d, hi, hc, hd => by
    simp only [pairs] at h
    cases hv : value a with
    | none => simp [hv] at h
    | some v =>
      simp only [hv] at h
      cases hp : pairs s with
      | none => simp [hp] at h
      | some t =>
        simp [hp] at h
        match i, hi, hc, hd with
        | 0, _, hc, hd =>
          simp at hc hd
          subst hc hd
          rw [← h]
          unfold pairByte
          rw [hv]
          cases value e with
          | none => rfl
          | some w => simp [Nat.mul_comm]
        | 1, hi, _, _ => omega
        | i + 2, hi, hc, hd =>
          have := pairs_get hp (i := i) (c := c) (d := d) (by omega) (by simpa using hc) (by simpa using hd)
          rw [← h, show (i + 2) / 2 = i / 2 + 1 by omega]
          simpa using this

theorem loop_short (junk : List Byte) : ∀ (s out : List Byte) (o : Nat), (∀ c ∈ s, IsHex c) → s.length % 2 = 0 → o ≤ out.length →
    out.length < o + s.length / 2 → hex2rawLoop out o (s ++ 0 :: junk) = .error .oobWrite
  | [], out, o, _, _, h, h' => by simp at h'; omega
  | [_], _, _, _, hev, _, _ => by simp at hev
  | a :: c :: s, out, o, hx, hev, h, h' => by
    simp only [List.length_cons] at hev h'
    have ha : a ≠ 0 := fun e => absurd (hx a (by simp)) (by rw [e]; decide)
    obtain ⟨va, hva⟩ := Option.isSome_iff_exists.1 (hx a (by simp))
    simp only [List.cons_append, hex2rawLoop]
    rw [if_neg ha, hval_eq_value, hva]
    simp only
    by_cases ho : o < out.length
    · rw [show ∀ w, wr out o w = .ok (out.set o w) from fun w => by unfold wr; rw [if_pos ho], ok_bindE]
      exact loop_short junk s _ _ (fun x hx' => hx x (by simp [hx'])) (by omega) (by simp; omega) (by simp; omega)
    · rw [show ∀ w, wr out o w = .error .oobWrite from fun w => by unfold wr; rw [if_neg ho]]
      rfl

theorem pairs_length : ∀ {s bs : List Byte}, s.length % 2 = 0 → pairs s = some bs → bs.length = s.length / 2
  | [], bs, _, h => by simp [pairs] at h; simp [h]
  | [_], bs, hl, h => by simp at hl
  | a :: c :: s, bs, hl, h => by
    simp only [List.length_cons] at *
    simp only [pairs] at h
    cases hv : value a with
    | none => simp [hv] at h
    | some v =>
      simp only [hv] at h
      cases hp : pairs s with
      | none => simp [hp] at h
      | some t =>
        have ih := pairs_length (s := s) (by omega) hp
        simp [hp] at h
        simp [← h, ih]
        omega

theorem pairs_none : ∀ {s : List Byte}, s.length % 2 = 0 →
    (pairs s = none ↔ ∃ i, ∃ h : i < s.length, i % 2 = 0 ∧ ¬ IsHex s[i])
  | [], _ => by simp [pairs]
  | [_], hl => by simp at hl
  | a :: c :: s, hl => by
    simp only [List.length_cons] at hl
    have ih := pairs_none (s := s) (by omega)
    simp only [pairs]
    cases hv : value a with
    | none =>
      simp only [Option.bind_eq_bind, Option.bind_none, true_iff]
      exact ⟨0, by simp, by simp, by simp [IsHex, hv]⟩
    | some v =>
      have : (pairs s = none) ↔ _ := ih
      simp only [Option.bind_eq_bind, Option.bind_some]
      constructor
      · intro h
        cases hp : pairs s with
        | some t => simp [hp] at h
        | none =>
          obtain ⟨i, hi, h2, h3⟩ := ih.1 hp
          exact ⟨i + 2, by simp only [List.length_cons]; omega, by omega, by simpa using h3⟩
      · rintro ⟨i, hi, h2, h3⟩
        match i, hi, h2, h3 with
        | 0, _, _, h3 => simp [IsHex, hv] at h3
        | 1, _, h2, _ => omega
        | i + 2, hi, h2, h3 =>
          simp only [List.length_cons] at hi
          have := ih.2 ⟨i, by omega, by omega, by simpa using h3⟩
          simp [this]

theorem number_append (s t : List Byte) (acc : Option Nat) :
    (s ++ t).foldl (fun acc c => do pure ((← acc) * 16 + (← value c))) acc
    = t.foldl (fun acc c => do pure ((← acc) * 16 + (← value c)))
       (s.foldl (fun acc c => do pure ((← acc) * 16 + (← value c))) acc) := by
  rw [List.foldl_append]

theorem foldl_none (s : List Byte) :
    s.foldl (fun acc c => do pure ((← acc) * 16 + (← value c))) (none : Option Nat) = none := by
  induction s with
  | nil => rfl
  | cons a s ih => simpa using ih

theorem pairs_number : ∀ {s bs : List Byte} (acc : Nat), s.length % 2 = 0 → (∀ c ∈ s, IsHex c) →
    pairs s = some bs →
    s.foldl (fun acc c => do pure ((← acc) * 16 + (← value c))) (some acc)
      = some (bs.foldl (fun acc b => acc * 256 + b.toNat) acc)
  | [], bs, acc, _, _, h => by simp [pairs] at h; simp [h]
  | [_], bs, acc, hl, _, h => by simp at hl
  | a :: c :: s, bs, acc, hl, hx, h => by
    simp only [List.length_cons] at *
    have ha : IsHex a := hx a (by simp)
    have hc : IsHex c := hx c (by simp)
    obtain ⟨va, hva⟩ := Option.isSome_iff_exists.1 ha
    obtain ⟨vc, hvc⟩ := Option.isSome_iff_exists.1 hc
    have := value_lt hva; have := value_lt hvc
    simp only [pairs, hva, hvc] at h
    cases hp : pairs s with
    | none => simp [hp] at h
    | some t =>
      simp [hp] at h
      have ih := pairs_number (s := s) (bs := t) ((acc * 16 + va) * 16 + vc) (by omega)
        (fun c hc => hx c (by simp [hc])) hp
      simp only [List.foldl_cons, hva, hvc]
      simp only [Option.bind_eq_bind, Option.bind_some, Option.pure_def] at *
      rw [ih, ← h]
      simp only [List.foldl_cons, BitVec.toNat_ofNat]
      congr 2
      omega

theorem pairs_text (s : List Byte) : pairs (text s) = some s := by
  induction s with
  | nil => rfl
  | cons a s ih =>
    have ha := a.isLt
    simp only [text, List.flatMap_cons, List.cons_append, List.nil_append] at *
    simp only [pairs, value_digit (n := a.toNat / 16) (by omega), value_digit (n := a.toNat % 16) (by omega)]
    rw [ih]
    simp
    apply BitVec.eq_of_toNat_eq
    simp only [BitVec.toNat_ofNat]; omega

end Ulz.Hex

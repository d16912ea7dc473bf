import Verif.Spec.Format
import Verif.Proofs.Mem
import Verif.Props.Numbers
/-! Lemmas about formatted printing. -/
namespace Ulz.Format
open Numbers Numbers.Spec Spec

/-- The variables when the text `t` has been printed. -/
def mk (d : Option (List Byte)) (size : Nat) (t : List Byte) (w : Nat) (cb : List Byte) (args : List Arg) : St :=
  { dest := d.map fun b => put b 0 (t.take (size - 1))
    destsize := size
    o := if d.isSome then min t.length (size - 1) else 0
    res := if d.isSome then min t.length (size - 1) else t.length
    width := w, cbuf := cb, args := args }

theorem emit_spec {d : Option (List Byte)} {size : Nat} (hd : DestOk d size) (t : List Byte) (w : Nat) (cb : List Byte) (args : List Arg) (c : Byte) :
    emit (mk d size t w cb args) c = .ok (mk d size (t ++ [c]) w cb args) := by
  cases d with
  | none => simp [emit, mk]
  | some b =>
    have h2 := hd b rfl
    unfold emit mk
    simp only [Option.map_some, Option.isSome_some, if_true, List.length_append, List.length_singleton]
    by_cases h : t.length < size - 1
    · rw [if_pos (by omega), List.take_of_length_le (show t.length ≤ size - 1 by omega), wr_put0 (by omega) (by omega)]
      simp only [ok_bind, pure_eq_ok]
      rw [List.take_of_length_le (by simp; omega), show min t.length (size - 1) + 1 = min (t.length + 1) (size - 1) by omega]
    · rw [if_neg (by omega), List.take_append_of_le_length (by omega), show min (t.length + 1) (size - 1) = min t.length (size - 1) by omega]
      rfl

theorem cstr_cons (c : Byte) (b : List Byte) : cstr (c :: b) = if c = 0 then [] else c :: cstr b := by
  unfold cstr
  rw [List.takeWhile_cons]
  by_cases h : c = 0
  · rw [if_pos h, if_neg (by simp [h])]
  · rw [if_neg h, if_pos (by simpa using h)]

theorem strmove_spec {d : Option (List Byte)} {size : Nat} (hd : DestOk d size) (w : Nat) (cb : List Byte) (args : List Arg) : ∀ (b t : List Byte),
    strmove (mk d size t w cb args) b = if 0 ∈ b then .ok (mk d size (t ++ cstr b) w cb args) else .error .oobRead
  | [], t => by simp [strmove]
  | c :: b, t => by
    unfold strmove
    by_cases hc : c = 0
    · rw [if_pos hc, if_pos (by simp [hc]), cstr_cons, if_pos hc, List.append_nil]; rfl
    · rw [if_neg hc, emit_spec hd]
      simp only [ok_bind]
      rw [strmove_spec hd w cb args b, cstr_cons, if_neg hc, List.append_assoc]
      by_cases hb : (0 : Byte) ∈ b
      · rw [if_pos hb, if_pos (List.mem_cons_of_mem _ hb)]; rfl
      · rw [if_neg hb, if_neg]
        intro h
        rcases List.mem_cons.1 h with h | h
        · exact hc h.symm
        · exact hb h

theorem strmove_str {d : Option (List Byte)} {size : Nat} (hd : DestOk d size) (w : Nat) (cb : List Byte) (args : List Arg) (s junk t : List Byte) (hs : 0 ∉ s) :
    strmove (mk d size t w cb args) (s ++ 0 :: junk) = .ok (mk d size (t ++ s) w cb args) := by
  rw [strmove_spec hd, if_pos (List.mem_append.2 (Or.inr (List.mem_cons_self ..)))]
  congr 3
  unfold cstr
  rw [List.takeWhile_append_of_pos]
  · simp
  · intro a ha
    simp only [decide_eq_true_eq]
    intro h
    exact hs (h ▸ ha)

/-! ### Numbers -/

theorem padded_lowDigits (b : Nat) : ∀ w n, lowDigits b w n = padded b w n
  | 0, n => rfl
  | w + 1, n => by
    rw [lowDigits, padded_lowDigits b w]
    unfold padded
    rw [List.range_succ_eq_map]
    simp only [List.reverse_cons, List.map_append, List.map_cons, List.map_nil, Nat.pow_zero, Nat.div_one, ← List.map_reverse, List.map_map]
    congr 1
    apply List.map_congr_left
    intro i _
    simp only [Function.comp]
    rw [Nat.pow_succ, Nat.mul_comm, Nat.div_div_eq_div_mul]

theorem symbol_ne_zero (l : Bool) {d : Nat} (h : d < 62) : symbol l d ≠ 0 := by
  have : ∀ l : Bool, ∀ d : Fin 62, symbol l d.1 ≠ 0 := by decide
  exact this l ⟨d, h⟩

theorem padded_lt {b : Nat} (hb : 2 ≤ b) (w n : Nat) : ∀ d ∈ padded b w n, d < b := by
  rw [← padded_lowDigits]; exact lowDigits_lt hb w n

theorem numText_zero (b : Nat) (hb : 2 ≤ b) (hb' : b ≤ 62) (lower : Bool) (w : Nat) (x : Int) : 0 ∉ numText b hb lower w x := by
  unfold numText
  intro h
  rcases List.mem_append.1 h with h | h
  · split at h
    · rw [List.mem_singleton] at h; revert h; decide
    · simp at h
  · obtain ⟨d, h1, h2⟩ := List.mem_map.1 h
    refine symbol_ne_zero lower (d := d) ?_ h2
    split at h1
    · have := digitsOf_lt hb d h1; omega
    · have := padded_lt hb _ _ d h1; omega

theorem fillLoop_short (r : Nat) : ∀ (n i : Nat) (b : List Byte), b.length < r + i + n → (0 < n) →  ∃ u, fillLoop b r n i = .error u
  | n + 1, i, b, h, _ => by
    unfold fillLoop
    by_cases hi : r + i < b.length
    · rw [wr_ok hi]
      simp only [ok_bind]
      exact fillLoop_short r n (i + 1) _ (by simp; omega) (by omega)
    · refine ⟨.oobWrite, ?_⟩
      unfold wr
      rw [if_neg hi]; rfl

/-- A buffer that is too small is overrun. -/
theorem numberToString_short (number : BitVec 64) (base : Nat) (buffer : List Byte) (maxlen flags : Nat)
    (hb : 2 ≤ base) (hev : base % 2 = 0) (hb' : base ≤ 62) (hm : maxlen ≠ 0)
    (neg : Bool) (hneg : neg = ((flags &&& NTS_SIGNED_TYPE ≠ 0) && decide (2^63 ≤ number.toNat)))
    (hbuf : buffer.length < (if neg then 1 else 0) + maxlen + 1) :
    ∃ u, numberToString number base buffer maxlen flags = .error u := by
  have hlen : conv_cypher.length = 62 := by decide
  have h63 : (number >>> 63 == 1) = decide (2^63 ≤ number.toNat) := by
    have hn := number.isLt
    rw [Bool.eq_iff_iff, beq_iff_eq, decide_eq_true_iff]
    constructor
    · intro h
      have := congrArg BitVec.toNat h
      simp [Nat.shiftRight_eq_div_pow] at this
      omega
    · intro h
      apply BitVec.eq_of_toNat_eq
      simp [Nat.shiftRight_eq_div_pow]
      omega
  unfold numberToString
  rw [if_neg (by omega)]
  simp only [h63, ← hneg]
  rw [dif_pos hb, if_neg hm]
  by_cases h : (if neg then 1 else 0) + maxlen ≤ buffer.length
  · have hfill := fillLoop_put buffer (if neg = true then 1 else 0) maxlen 0 [] rfl (by omega)
    rw [put_nil, List.nil_append] at hfill
    rw [hfill]
    simp only [ok_bind]
    refine ⟨.oobWrite, ?_⟩
    unfold wr
    rw [if_neg (by rw [put_length (by simp; omega)]; omega)]
    rfl
  · obtain ⟨u, hu⟩ := fillLoop_short (if neg then 1 else 0) maxlen 0 buffer (by omega) (by omega)
    rw [hu]
    exact ⟨u, rfl⟩

theorem natAbs_toInt (n : BitVec 64) : n.toInt.natAbs = if 2 ^ 63 ≤ n.toNat then 2 ^ 64 - n.toNat else n.toNat := by
  have hi : n.toInt = if 2 * n.toNat < 2^64 then (n.toNat : Int) else n.toNat - 2^64 := BitVec.toInt_eq_toNat_cond n
  have := n.isLt
  rw [hi]; split <;> split <;> omega

theorem toInt_neg_iff (n : BitVec 64) : n.toInt < 0 ↔ 2 ^ 63 ≤ n.toNat := by
  have hi : n.toInt = if 2 * n.toNat < 2^64 then (n.toNat : Int) else n.toNat - 2^64 := BitVec.toInt_eq_toNat_cond n
  have := n.isLt
  rw [hi]; split <;> omega

/-- numberToString as ulz_vsnprintf uses it. -/
theorem nts_spec (v : BitVec 64) (base : Nat) (hb : 2 ≤ base) (hev : base = 10 ∨ base = 16) (cb : List Byte) (hcb : cb.length = 32) (w : Nat)
    (signed lower : Bool) (nf : Nat) (hnf : (nf = 0 ∧ signed = false ∧ lower = false) ∨ (nf = 2 ∧ signed = true ∧ lower = false) ∨ (nf = 4 ∧ signed = false ∧ lower = true))
    (x : Int) (hx : x = if signed then v.toInt else (v.toNat : Int)) :
    if (if x < 0 then 1 else 0) + w + 1 ≤ 32 then
      numberToString v base cb w (if w ≠ 0 then nf ||| NTS_PAD else nf) = .ok (put cb 0 (numText base hb lower w x ++ [0]), some 0)
    else ∃ u, numberToString v base cb w (if w ≠ 0 then nf ||| NTS_PAD else nf) = .error u := by
  generalize hfl : (if w ≠ 0 then nf ||| NTS_PAD else nf) = flags
  have hs : (decide (flags &&& NTS_SIGNED_TYPE ≠ 0)) = signed := by
    rw [← hfl]
    rcases hnf with ⟨rfl, rfl, _⟩ | ⟨rfl, rfl, _⟩ | ⟨rfl, rfl, _⟩ <;> (split <;> decide)
  have hl : (decide (flags &&& NTS_LOWERCASE_CHARS ≠ 0) && decide (base ≤ 36)) = lower := by
    rw [← hfl]
    rcases hev with rfl | rfl <;> rcases hnf with ⟨rfl, _, rfl⟩ | ⟨rfl, _, rfl⟩ | ⟨rfl, _, rfl⟩ <;> (split <;> decide)
  have hneg : (signed && decide (2 ^ 63 ≤ v.toNat)) = decide (x < 0) := by
    cases signed with
    | false =>
      rw [hx]; simp
    | true =>
      rw [hx]; simp [toInt_neg_iff]
  have hmag : x.natAbs = if decide (x < 0) then 2 ^ 64 - v.toNat else v.toNat := by
    rw [← hneg]
    cases signed with
    | false => rw [hx]; simp
    | true => rw [hx]; simp [natAbs_toInt]
  have hxlt : x.natAbs < 2 ^ 64 := by
    have := v.isLt
    rw [hmag]
    split
    · rename_i h
      rw [← hneg] at h
      simp at h
      omega
    · omega
  by_cases hfit : (if x < 0 then 1 else 0) + w + 1 ≤ 32
  · rw [if_pos hfit]
    have hdig : (digitsOf base x.natAbs hb).length ≤ 20 := by
      rcases hev with rfl | rfl
      · exact (digitsOf_length_le _ 19 _).2 (by omega)
      · exact (digitsOf_length_le _ 19 _).2 (by omega)
    rw [numberToString_main v base cb w flags hb (by omega) (by omega) (decide (x < 0)) (by rw [hs, hneg]) x.natAbs
      (if w = 0 then (digitsOf base x.natAbs hb).length else w) hmag rfl (by
        rw [hcb]
        by_cases hx0 : x < 0 <;> by_cases hw : w = 0 <;> simp only [hx0, hw, decide_true, decide_false, if_true, if_false, Bool.false_eq_true] at hfit ⊢ <;> omega)]
    have e1 : lowDigits base (if w = 0 then (digitsOf base x.natAbs hb).length else w) x.natAbs = if w = 0 then digitsOf base x.natAbs hb else padded base w x.natAbs := by
      split
      · exact lowDigits_digitsOf ..
      · exact padded_lowDigits ..
    have e2 : (if flags = 0 then (if x.natAbs = 0 then (if w = 0 then (digitsOf base x.natAbs hb).length else w) - 1
        else leadingZeros (if w = 0 then digitsOf base x.natAbs hb else padded base w x.natAbs)) else 0) = 0 := by
      split
      · rename_i hf0
        have hw : w = 0 := by
          apply Classical.byContradiction
          intro hw
          rw [if_pos hw] at hfl
          have := congrArg (· &&& 1) (hfl.trans hf0)
          rcases hnf with ⟨rfl, _⟩ | ⟨rfl, _⟩ | ⟨rfl, _⟩ <;> simp [NTS_PAD] at this
        simp only [hw, if_true]
        split
        · rename_i h0
          rw [h0, digitsOf, dif_pos (by omega)]; rfl
        · rename_i h0
          exact Props.leadingZeros_digitsOf _ _ _ h0
      · rfl
    rw [e1, hl, e2]
    unfold numText
    have e3 : (if decide (x < 0) = true then [45] else []) = (if x < 0 then [ch '-'] else []) := by
      by_cases h : x < 0
      · rw [if_pos h, if_pos (by simpa using h)]; rfl
      · rw [if_neg h, if_neg (by simpa using h)]
    rw [e3]
  · rw [if_neg hfit]
    have hw : w ≠ 0 := by
      intro hw
      apply hfit
      split <;> omega
    exact numberToString_short v base cb w flags hb (by omega) (by omega) hw (decide (x < 0)) (by rw [hs, hneg]) (by
      rw [hcb]
      by_cases hx0 : x < 0 <;> simp only [hx0, decide_true, decide_false, if_true, if_false, Bool.false_eq_true] at hfit ⊢ <;> omega)

theorem nconv_spec {d : Option (List Byte)} {size : Nat} (hd : DestOk d size) (t : List Byte) (w : Nat) (cb : List Byte) (hcb : cb.length = 32) (args : List Arg)
    (v : BitVec 64) (base : Nat) (hb : 2 ≤ base) (hev : base = 10 ∨ base = 16)
    (signed lower : Bool) (nf : Nat) (hnf : (nf = 0 ∧ signed = false ∧ lower = false) ∨ (nf = 2 ∧ signed = true ∧ lower = false) ∨ (nf = 4 ∧ signed = false ∧ lower = true))
    (x : Int) (hx : x = if signed then v.toInt else (v.toNat : Int)) :
    if (if x < 0 then 1 else 0) + w + 1 ≤ 32 then
      ∃ cb', cb'.length = 32 ∧ nconv (mk d size t w cb args) v base nf = .ok (some (mk d size (t ++ numText base hb lower w x) 0 cb' args))
    else ∃ u, nconv (mk d size t w cb args) v base nf = .error u := by
  have h := nts_spec v base hb hev cb hcb w signed lower nf hnf x hx
  have hw : (mk d size t w cb args).width = w := rfl
  have hc : (mk d size t w cb args).cbuf = cb := rfl
  by_cases hfit : (if x < 0 then 1 else 0) + w + 1 ≤ 32
  · rw [if_pos hfit] at h ⊢
    have hlen : (numText base hb lower w x).length + 1 ≤ 32 := by
      apply Classical.byContradiction
      intro hlt
      -- the text fits, as sign and digits are counted
      have hdig : (digitsOf base x.natAbs hb).length ≤ 20 := by
        have hxlt : x.natAbs < 2 ^ 64 := by
          have := v.isLt
          rw [hx]
          cases signed with
          | false => simp; omega
          | true => simp only [if_true]; rw [natAbs_toInt]; split <;> omega
        rcases hev with rfl | rfl
        · exact (digitsOf_length_le _ 19 _).2 (by omega)
        · exact (digitsOf_length_le _ 19 _).2 (by omega)
      apply hlt
      unfold numText
      rw [List.length_append, List.length_map]
      by_cases hx0 : x < 0 <;> by_cases hw : w = 0 <;> simp only [hx0, hw, if_true, if_false, padded, List.length_map, List.length_reverse, List.length_range, List.length_singleton, List.length_nil] at hfit ⊢ <;> omega
    refine ⟨put cb 0 (numText base hb lower w x ++ [0]), by rw [put_length (by simp; omega), hcb], ?_⟩
    unfold nconv
    simp only [hw, hc]
    rw [h]
    simp only [ok_bind, List.drop_zero]
    rw [put_zero, List.append_assoc]
    have := strmove_str hd 0 (numText base hb lower w x ++ ([0] ++ cb.drop (numText base hb lower w x ++ [0]).length)) args (numText base hb lower w x) (cb.drop (numText base hb lower w x ++ [0]).length) t
      (numText_zero base hb (by omega) lower w x)
    have e : ({ mk d size t w cb args with cbuf := numText base hb lower w x ++ ([0] ++ cb.drop (numText base hb lower w x ++ [0]).length), width := 0 } : St) =
      mk d size t 0 (numText base hb lower w x ++ ([0] ++ cb.drop (numText base hb lower w x ++ [0]).length)) args := rfl
    rw [e]
    erw [this]
    rfl
  · rw [if_neg hfit] at h ⊢
    obtain ⟨u, hu⟩ := h
    refine ⟨u, ?_⟩
    unfold nconv
    simp only [hw, hc]
    rw [hu]
    rfl

/-! ### The precision -/

theorem isNumber_digit {d : Nat} (h : d < 10) : isNumber (digit d) = true := by
  have : ∀ d : Fin 10, isNumber (digit d.1) = true := by decide
  exact this ⟨d, h⟩

theorem isNumber_iff (c : Byte) : isNumber c = true ↔ isDigit c := by
  unfold isNumber isDigit
  simp only [decide_eq_true_eq]

theorem countDigits_spec : ∀ (ds : List Nat) (c : Byte) (r : List Byte), (∀ d ∈ ds, d < 10) → ¬ isDigit c →
    countDigits (ds.map digit ++ c :: r) = .ok ds.length
  | [], c, r, _, hc => by
    simp only [List.map_nil, List.nil_append]
    unfold countDigits
    rw [if_neg (by rw [isNumber_iff]; exact hc)]
    rfl
  | d :: ds, c, r, h, hc => by
    simp only [List.map_cons, List.cons_append]
    unfold countDigits
    rw [if_pos (isNumber_digit (h d (List.mem_cons_self ..))), countDigits_spec ds c r (fun x hx => h x (List.mem_cons_of_mem _ hx)) hc]
    rfl

theorem digit_toNat {d : Nat} (h : d < 10) : (digit d).toNat - 48 = d := by
  have : ∀ d : Fin 10, (digit d.1).toNat - 48 = d.1 := by decide
  exact this ⟨d, h⟩

theorem widthLoop_tail (i : Nat) : ∀ (ds : List Nat) (p r : List Byte) (w : Nat), (∀ d ∈ ds, d < 10) → p.length ≠ 0 → i = p.length + ds.length → w < 2 ^ 64 →
    widthLoop (p ++ (ds.map digit ++ r)) i ds.length p.length w = .ok ((w + weigh ds) % 2 ^ 64)
  | [], p, r, w, _, _, _, hw => by
    simp only [List.length_nil, widthLoop, weigh, Nat.add_zero]
    rw [Nat.mod_eq_of_lt hw]; rfl
  | d :: ds, p, r, w, h, hp, hi, hw => by
    rw [List.length_cons] at hi ⊢
    simp only [List.map_cons, List.cons_append]
    unfold widthLoop
    rw [rd_append_right (Nat.le_refl _), Nat.sub_self, rd_cons_zero]
    simp only [ok_bind]
    rw [digit_toNat (h d (List.mem_cons_self ..)), if_pos hp]
    have := widthLoop_tail i ds (p ++ [digit d]) r (szt (w + d * (10 * (i - 1 - p.length)))) (fun x hx => h x (List.mem_cons_of_mem _ hx)) (by simp) (by simp; omega)
      (Nat.mod_lt _ (by decide))
    rw [List.length_append, List.length_singleton, List.append_assoc] at this
    simp only [List.singleton_append] at this
    rw [this]
    congr 1
    unfold szt
    rw [Nat.mod_add_mod, show i - 1 - p.length = ds.length by omega, weigh, Nat.add_assoc]

theorem widthLoop_spec (ds : List Nat) (r : List Byte) (h : ∀ d ∈ ds, d < 10) (h0 : ds ≠ []) :
    widthLoop (ds.map digit ++ r) ds.length ds.length 0 0 = .ok (Spec.width ds) := by
  match ds, h0 with
  | d :: ds, _ =>
    simp only [List.map_cons, List.cons_append, List.length_cons]
    unfold widthLoop
    rw [rd_cons_zero]
    simp only [ok_bind]
    have hd := h d (List.mem_cons_self ..)
    rw [digit_toNat hd, if_neg (by omega)]
    have := widthLoop_tail (ds.length + 1) ds [digit d] r d (fun x hx => h x (List.mem_cons_of_mem _ hx)) (by simp) (by simp; omega) (by omega)
    simp only [List.length_singleton, List.singleton_append] at this
    rw [show szt (0 + d * 1) = d from by rw [Nat.zero_add, Nat.mul_one]; exact szt_of_lt (by omega)]
    exact this

theorem convert_prec (st : St) (ds : List Nat) (c : Byte) (r : List Byte) (h : ∀ d ∈ ds, d < 10) (h0 : ds ≠ []) (hc : ¬ isDigit c) :
    convert st (ch '.' :: ds.map digit ++ c :: r) = .ok ({ st with width := Spec.width ds }, .mod (c :: r)) := by
  unfold convert
  simp only [List.cons_append, rd_cons_zero, ok_bind, List.drop_one, List.tail_cons]
  rw [if_neg (by decide), if_pos trivial, countDigits_spec ds c r h hc]
  simp only [ok_bind]
  have : ds.length ≠ 0 := by
    intro hl
    exact h0 (List.eq_nil_of_length_eq_zero hl)
  rw [if_neg this, widthLoop_spec ds _ h h0]
  simp only [ok_bind]
  rw [List.drop_left' (by simp)]
  rfl

/-! ### One conversion -/

theorem convert_d (st : St) (r : List Byte) : convert st (bytes! "d" ++ r) = intstart st 10 2 r := rfl
theorem convert_x (st : St) (r : List Byte) : convert st (bytes! "x" ++ r) = intstart st 16 4 r := rfl
theorem convert_X (st : St) (r : List Byte) : convert st (bytes! "X" ++ r) = intstart st 16 0 r := rfl
theorem convert_u (st : St) (r : List Byte) : convert st (bytes! "u" ++ r) = (do
    let (v, st) ← vaInt st
    match ← nconv st (v.zeroExtend 64) 10 0 with
    | none => pure (st, .fail)
    | some st => pure (st, .loop r)) := rfl
theorem convert_p (st : St) (r : List Byte) : convert st (bytes! "p" ++ r) = (do
    let (v, st) ← vaLong st
    match ← nconv st v 16 0 with
    | none => pure (st, .fail)
    | some st => pure (st, .loop r)) := rfl

def longConv (st : St) (nf : Nat) (r : List Byte) : C (St × Next) := do
    let (v, st) ← vaLong st
    match ← nconv st v 10 nf with
    | none => pure (st, .fail)
    | some st => pure (st, .loop r)

theorem convert_ld (st : St) (r : List Byte) : convert st (bytes! "ld" ++ r) = longConv st 2 r := rfl
theorem convert_lu (st : St) (r : List Byte) : convert st (bytes! "lu" ++ r) = longConv st 0 r := rfl
theorem convert_lld (st : St) (r : List Byte) : convert st (bytes! "lld" ++ r) = longConv st 2 r := rfl
theorem convert_llu (st : St) (r : List Byte) : convert st (bytes! "llu" ++ r) = longConv st 0 r := rfl
theorem convert_zd (st : St) (r : List Byte) : convert st (bytes! "zd" ++ r) = longConv st 2 r := rfl
theorem convert_zu (st : St) (r : List Byte) : convert st (bytes! "zu" ++ r) = longConv st 0 r := rfl
theorem convert_pct (st : St) (r : List Byte) : convert st (bytes! "%" ++ r) = (do pure (← emit st (ch '%'), .loop r)) := rfl
theorem convert_s (st : St) (r : List Byte) : convert st (bytes! "s" ++ r) = (do
    let (ins, st) ← vaStr st
    match ins with
    | none => pure (st, .fail)
    | some b => pure (← strmove st b, .loop r)) := rfl
theorem convert_c (st : St) (r : List Byte) : convert st (bytes! "c" ++ r) = (do
    let (v, st) ← vaInt st
    let cbuf ← wr st.cbuf 0 (v.setWidth 8)
    let cbuf ← wr cbuf 1 0
    pure (← strmove { st with cbuf := cbuf } cbuf, .loop r)) := rfl

theorem sext_nonneg (v : BitVec 32) : ((v.signExtend 64).toNat : Int) = if v.toInt < 0 then v.toInt + 2 ^ 64 else v.toInt := by
  have e : (v.signExtend 64).toInt = v.toInt := BitVec.toInt_signExtend_of_le (by omega)
  have hi := BitVec.toInt_eq_toNat_cond (v.signExtend 64)
  have := (v.signExtend 64).isLt
  rw [e] at hi
  rw [hi]
  split <;> split <;> omega

theorem zext_toNat (v : BitVec 32) : (v.zeroExtend 64).toNat = v.toNat := by
  simp only [BitVec.truncate_eq_setWidth, BitVec.toNat_setWidth]
  have := v.isLt
  omega

/-- What one conversion has to do. -/
def ConvOk (d : Option (List Byte)) (size : Nat) (t r : List Byte) (st : St) : Piece → C (St × Next) → Prop
  | .text u w args, res => ∃ cb, cb.length = 32 ∧ res = .ok (mk d size (t ++ u) w cb args, .loop r)
  | .fail, res => ∃ st', st'.dest = st.dest ∧ res = .ok (st', .fail)
  | .undef, res => ∃ u, res = .error u

section
variable {d : Option (List Byte)} {size : Nat} (hd : DestOk d size) (t : List Byte) (w : Nat) (cb : List Byte) (hcb : cb.length = 32) (r : List Byte)
include hd hcb

theorem num_spec (args : List Arg) (v : BitVec 64) (base : Nat) (hb : 2 ≤ base) (hev : base = 10 ∨ base = 16)
    (signed lower : Bool) (nf : Nat) (hnf : (nf = 0 ∧ signed = false ∧ lower = false) ∨ (nf = 2 ∧ signed = true ∧ lower = false) ∨ (nf = 4 ∧ signed = false ∧ lower = true))
    (x : Int) (hx : x = if signed then v.toInt else (v.toNat : Int)) (st0 st1 : St) :
    ConvOk d size t r st0 (if (if x < 0 then 1 else 0) + w + 1 ≤ 32 then .text (numText base hb lower w x) 0 args else .undef)
      (do match ← nconv (mk d size t w cb args) v base nf with
          | none => pure (st1, .fail)
          | some st => pure (st, .loop r)) := by
  have h := nconv_spec hd t w cb hcb args v base hb hev signed lower nf hnf x hx
  by_cases hfit : (if x < 0 then 1 else 0) + w + 1 ≤ 32
  · rw [if_pos hfit] at h ⊢
    obtain ⟨cb', h1, h2⟩ := h
    refine ⟨cb', h1, ?_⟩
    rw [h2]; rfl
  · rw [if_neg hfit] at h ⊢
    obtain ⟨u, hu⟩ := h
    exact ⟨u, by rw [hu]; rfl⟩

theorem convert_spec (k : Kind) (args : List Arg) :
    ConvOk d size t r (mk d size t w cb args) (convText w k args) (convert (mk d size t w cb args) (k.spell ++ r)) := by
  cases k with
  | pct =>
    simp only [Kind.spell, convText]
    rw [convert_pct, emit_spec hd]
    exact ⟨cb, hcb, rfl⟩
  | s =>
    simp only [Kind.spell]
    rw [convert_s]
    match args with
    | [] => exact ⟨.oobRead, rfl⟩
    | .int _ :: _ => exact ⟨.oobRead, rfl⟩
    | .long _ :: _ => exact ⟨.oobRead, rfl⟩
    | .str none :: as => exact ⟨mk d size t w cb as, rfl, rfl⟩
    | .str (some b) :: as =>
      simp only [convText, vaStr, mk, pure_eq_ok, ok_bind]
      have h := strmove_spec hd w cb as b t
      unfold mk at h
      rw [h]
      by_cases hb : (0 : Byte) ∈ b
      · rw [if_pos hb, if_pos hb]
        exact ⟨cb, hcb, rfl⟩
      · rw [if_neg hb, if_neg hb]
        exact ⟨.oobRead, rfl⟩
  | c =>
    simp only [Kind.spell]
    rw [convert_c]
    match args with
    | [] => exact ⟨.oobRead, rfl⟩
    | .str _ :: _ => exact ⟨.oobRead, rfl⟩
    | .long _ :: _ => exact ⟨.oobRead, rfl⟩
    | .int v :: as =>
      simp only [convText, vaInt, mk, pure_eq_ok, ok_bind]
      rw [wr_ok (by omega)]
      simp only [ok_bind]
      rw [wr_ok (by simp; omega)]
      simp only [ok_bind]
      obtain ⟨a, b, l, rfl⟩ : ∃ a b l, cb = a :: b :: l := by
        match cb, hcb with
        | a :: b :: l, _ => exact ⟨a, b, l, rfl⟩
      simp only [List.set_cons_zero, List.set_cons_succ]
      have h := strmove_spec hd w (v.setWidth 8 :: 0 :: l) as (v.setWidth 8 :: 0 :: l) t
      rw [if_pos (List.mem_cons_of_mem _ (List.mem_cons_self ..)), cstr_cons, cstr_cons, if_pos rfl] at h
      unfold mk at h
      rw [h]
      exact ⟨_, by simpa using hcb, rfl⟩
  | d =>
    simp only [Kind.spell]
    rw [convert_d]
    match args with
    | [] => exact ⟨.oobRead, rfl⟩
    | .str _ :: _ => exact ⟨.oobRead, rfl⟩
    | .long _ :: _ => exact ⟨.oobRead, rfl⟩
    | .int v :: as =>
      exact num_spec hd t w cb hcb r as (v.signExtend 64) 10 (by decide) (Or.inl rfl) true false 2 (by simp) v.toInt
        (BitVec.toInt_signExtend_of_le (by omega)).symm _ (mk d size t w cb as)
  | u =>
    simp only [Kind.spell]
    rw [convert_u]
    match args with
    | [] => exact ⟨.oobRead, rfl⟩
    | .str _ :: _ => exact ⟨.oobRead, rfl⟩
    | .long _ :: _ => exact ⟨.oobRead, rfl⟩
    | .int v :: as =>
      exact num_spec hd t w cb hcb r as (v.zeroExtend 64) 10 (by decide) (Or.inl rfl) false false 0 (by simp) v.toNat
        (by rw [zext_toNat]; rfl) _ (mk d size t w cb as)
  | x =>
    simp only [Kind.spell]
    rw [convert_x]
    match args with
    | [] => exact ⟨.oobRead, rfl⟩
    | .str _ :: _ => exact ⟨.oobRead, rfl⟩
    | .long _ :: _ => exact ⟨.oobRead, rfl⟩
    | .int v :: as =>
      exact num_spec hd t w cb hcb r as (v.signExtend 64) 16 (by decide) (Or.inr rfl) false true 4 (by simp) _
        (sext_nonneg v).symm _ (mk d size t w cb as)
  | X =>
    simp only [Kind.spell]
    rw [convert_X]
    match args with
    | [] => exact ⟨.oobRead, rfl⟩
    | .str _ :: _ => exact ⟨.oobRead, rfl⟩
    | .long _ :: _ => exact ⟨.oobRead, rfl⟩
    | .int v :: as =>
      exact num_spec hd t w cb hcb r as (v.signExtend 64) 16 (by decide) (Or.inr rfl) false false 0 (by simp) _
        (sext_nonneg v).symm _ (mk d size t w cb as)
  | p =>
    simp only [Kind.spell]
    rw [convert_p]
    match args with
    | [] => exact ⟨.oobRead, rfl⟩
    | .str _ :: _ => exact ⟨.oobRead, rfl⟩
    | .int _ :: _ => exact ⟨.oobRead, rfl⟩
    | .long v :: as =>
      exact num_spec hd t w cb hcb r as v 16 (by decide) (Or.inr rfl) false false 0 (by simp) _ rfl _ (mk d size t w cb as)
  | ld =>
    simp only [Kind.spell]
    rw [convert_ld]
    match args with
    | [] => exact ⟨.oobRead, rfl⟩
    | .str _ :: _ => exact ⟨.oobRead, rfl⟩
    | .int _ :: _ => exact ⟨.oobRead, rfl⟩
    | .long v :: as =>
      exact num_spec hd t w cb hcb r as v 10 (by decide) (Or.inl rfl) true false 2 (by simp) _ rfl _ (mk d size t w cb as)
  | lu =>
    simp only [Kind.spell]
    rw [convert_lu]
    match args with
    | [] => exact ⟨.oobRead, rfl⟩
    | .str _ :: _ => exact ⟨.oobRead, rfl⟩
    | .int _ :: _ => exact ⟨.oobRead, rfl⟩
    | .long v :: as =>
      exact num_spec hd t w cb hcb r as v 10 (by decide) (Or.inl rfl) false false 0 (by simp) _ rfl _ (mk d size t w cb as)
  | lld =>
    simp only [Kind.spell]
    rw [convert_lld]
    match args with
    | [] => exact ⟨.oobRead, rfl⟩
    | .str _ :: _ => exact ⟨.oobRead, rfl⟩
    | .int _ :: _ => exact ⟨.oobRead, rfl⟩
    | .long v :: as =>
      exact num_spec hd t w cb hcb r as v 10 (by decide) (Or.inl rfl) true false 2 (by simp) _ rfl _ (mk d size t w cb as)
  | llu =>
    simp only [Kind.spell]
    rw [convert_llu]
    match args with
    | [] => exact ⟨.oobRead, rfl⟩
    | .str _ :: _ => exact ⟨.oobRead, rfl⟩
    | .int _ :: _ => exact ⟨.oobRead, rfl⟩
    | .long v :: as =>
      exact num_spec hd t w cb hcb r as v 10 (by decide) (Or.inl rfl) false false 0 (by simp) _ rfl _ (mk d size t w cb as)
  | zd =>
    simp only [Kind.spell]
    rw [convert_zd]
    match args with
    | [] => exact ⟨.oobRead, rfl⟩
    | .str _ :: _ => exact ⟨.oobRead, rfl⟩
    | .int _ :: _ => exact ⟨.oobRead, rfl⟩
    | .long v :: as =>
      exact num_spec hd t w cb hcb r as v 10 (by decide) (Or.inl rfl) true false 2 (by simp) _ rfl _ (mk d size t w cb as)
  | zu =>
    simp only [Kind.spell]
    rw [convert_zu]
    match args with
    | [] => exact ⟨.oobRead, rfl⟩
    | .str _ :: _ => exact ⟨.oobRead, rfl⟩
    | .int _ :: _ => exact ⟨.oobRead, rfl⟩
    | .long v :: as =>
      exact num_spec hd t w cb hcb r as v 10 (by decide) (Or.inl rfl) false false 0 (by simp) _ rfl _ (mk d size t w cb as)

end

/-! ### The loop -/

theorem pend_cons (ds : List Nat) (ps : List (List Nat)) (w : Nat) : pend (ds :: ps) w = pend ps (Spec.width ds) := by
  cases ps with
  | nil => rfl
  | cons a ps =>
    unfold pend
    rw [List.getLast?_cons_cons]
    obtain ⟨x, hx⟩ : ∃ x, (a :: ps).getLast? = some x := ⟨_, List.getLast?_eq_some_getLast (by simp)⟩
    rw [hx]

theorem spellPrecs_cons (ds : List Nat) (ps : List (List Nat)) : spellPrecs (ds :: ps) = ch '.' :: ds.map digit ++ spellPrecs ps := rfl

theorem precs_head (ps : List (List Nat)) (c : Byte) (r : List Byte) (hc : ¬ isDigit c) :
    ∃ c' r', spellPrecs ps ++ c :: r = c' :: r' ∧ ¬ isDigit c' := by
  cases ps with
  | nil => exact ⟨c, r, rfl, hc⟩
  | cons ds ps => exact ⟨ch '.', _, rfl, by unfold isDigit; decide⟩

theorem loop_precs (ps : List (List Nat)) (hps : PrecsOk ps) (c : Byte) (r : List Byte) (hc : ¬ isDigit c) : ∀ (st : St) (fuel : Nat), 
    loop (fuel + ps.length) true (spellPrecs ps ++ c :: r) st = loop fuel true (c :: r) { st with width := pend ps st.width } := by
  induction ps with
  | nil => intro st fuel; rfl
  | cons ds ps ih =>
    intro st fuel
    have h := hps ds (List.mem_cons_self ..)
    have ih := ih (fun x hx => hps x (List.mem_cons_of_mem _ hx))
    obtain ⟨c', r', e, hc'⟩ := precs_head ps c r hc
    rw [spellPrecs_cons, List.append_assoc, e, List.length_cons, ← Nat.add_assoc]
    rw [loop, convert_prec st ds c' r' h.2 h.1 hc']
    simp only [ok_bind]
    rw [← e, ih, pend_cons]

theorem rd_zero (c : Byte) (r : List Byte) : rd (c :: r) 0 = .ok c := rfl

theorem convert_badchar (st : St) (c : Byte) (r : List Byte) (h : c ∉ bytes! "%.scdlzpuxX") : convert st (c :: r) = .ok (st, .fail) := by
  simp only [List.mem_cons, List.not_mem_nil, or_false, not_or] at h
  obtain ⟨h1, h2, h3, h4, h5, h6, h7, h8, h9, h10, h11⟩ := h
  unfold convert
  simp only [rd_cons_zero, ok_bind]
  rw [if_neg (show ¬ c = ch '%' from h1), if_neg (show ¬ c = ch '.' from h2), if_neg (show ¬ c = ch 's' from h3), if_neg (show ¬ c = ch 'c' from h4), if_neg (show ¬ c = ch 'd' from h5), if_neg (show ¬ c = ch 'l' from h6), if_neg (show ¬ c = ch 'z' from h7), if_neg (show ¬ c = ch 'p' from h8), if_neg (show ¬ c = ch 'u' from h9), if_neg (show ¬ c = ch 'x' from h10), if_neg (show ¬ c = ch 'X' from h11)]
  rfl

theorem convert_l (st : St) (r : List Byte) : convert st (ch 'l' :: r) = caseL st true r := rfl
theorem convert_z (st : St) (r : List Byte) : convert st (ch 'z' :: r) = caseL st false r := rfl

theorem caseL_fail (st : St) (f : Bool) (c : Byte) (r : List Byte) (h : c ∉ bytes! "ldu") : caseL st f (c :: r) = .ok (st, .fail) := by
  simp only [List.mem_cons, List.not_mem_nil, or_false, not_or] at h
  obtain ⟨h1, h2, h3⟩ := h
  unfold caseL
  simp only [rd_cons_zero, ok_bind]
  rw [if_neg (fun h : f = true ∧ c = ch 'l' => h1 h.2)]
  simp only [rd_cons_zero, ok_bind]
  rw [if_pos ⟨h2, h3⟩]
  rfl

theorem bad_loop (u : List Byte) (h : Bad u) : ∀ (st : St) (fuel : Nat), u.length < fuel → loop fuel true u st = .ok (st.dest, -1) := by
  induction h with
  | char h =>
    intro st fuel hf
    obtain ⟨fuel, rfl⟩ : ∃ f, fuel = f + 1 := ⟨fuel - 1, by omega⟩
    rw [loop, convert_badchar st _ _ h]
    rfl
  | @dot c r h =>
    intro st fuel hf
    obtain ⟨fuel, rfl⟩ : ∃ f, fuel = f + 1 := ⟨fuel - 1, by omega⟩
    have : convert st (ch '.' :: c :: r) = .ok (st, .fail) := by
      unfold convert
      simp only [rd_cons_zero, ok_bind, List.drop_one, List.tail_cons]
      have h2 := countDigits_spec [] c r (by simp) h
      simp only [List.map_nil, List.nil_append, List.length_nil] at h2
      rw [if_neg (by decide), if_pos trivial, h2]
      rfl
    rw [loop, this]
    rfl
  | @l c r h =>
    intro st fuel hf
    obtain ⟨fuel, rfl⟩ : ∃ f, fuel = f + 1 := ⟨fuel - 1, by omega⟩
    rw [loop, convert_l, caseL_fail st _ _ _ h]
    rfl
  | @ll c r h =>
    intro st fuel hf
    obtain ⟨fuel, rfl⟩ : ∃ f, fuel = f + 1 := ⟨fuel - 1, by omega⟩
    have : caseL st true (ch 'l' :: c :: r) = .ok (st, .fail) := by
      simp only [List.mem_cons, List.not_mem_nil, or_false, not_or] at h
      obtain ⟨h1, h2⟩ := h
      unfold caseL
      simp only [rd_cons_zero, ok_bind]
      rw [if_pos ⟨trivial, trivial⟩]
      simp only [List.drop_one, List.tail_cons, rd_cons_zero, ok_bind]
      rw [if_pos ⟨h1, h2⟩]
      rfl
    rw [loop, convert_l, this]
    rfl
  | @z c r h =>
    intro st fuel hf
    obtain ⟨fuel, rfl⟩ : ∃ f, fuel = f + 1 := ⟨fuel - 1, by omega⟩
    have : caseL st false (c :: r) = .ok (st, .fail) := by
      simp only [List.mem_cons, List.not_mem_nil, or_false, not_or] at h
      obtain ⟨h1, h2⟩ := h
      unfold caseL
      simp only [rd_cons_zero, ok_bind]
      rw [if_neg (by simp)]
      simp only [rd_cons_zero, ok_bind]
      rw [if_pos ⟨h1, h2⟩]
      rfl
    rw [loop, convert_z, this]
    rfl
  | @prec ds c r h0 h hc _ ih =>
    intro st fuel hf
    obtain ⟨fuel, rfl⟩ : ∃ f, fuel = f + 1 := ⟨fuel - 1, by omega⟩
    rw [loop, convert_prec st ds c r h h0 hc]
    simp only [ok_bind]
    rw [ih _ fuel (by simp at hf ⊢; omega)]

theorem spell_head (k : Kind) (r : List Byte) : ∃ c r', k.spell ++ r = c :: r' ∧ ¬ isDigit c := by
  cases k <;> exact ⟨_, _, rfl, by unfold isDigit; decide⟩

theorem prepend_prepend (a b : List Byte) (o : Outcome) : (o.prepend b).prepend a = o.prepend (a ++ b) := by
  cases o <;> simp [Outcome.prepend]

theorem spellPrecs_length (ps : List (List Nat)) : ps.length ≤ (spellPrecs ps).length := by
  induction ps with
  | nil => exact Nat.zero_le _
  | cons ds ps ih => rw [spellPrecs_cons]; simp; omega

theorem kind_length (k : Kind) : 1 ≤ k.spell.length := by cases k <;> decide

theorem loop_spec {d : Option (List Byte)} {size : Nat} (hd : DestOk d size) (bad : Bool) (tail : List Byte)
    (htail : if bad then ∃ u, tail = ch '%' :: u ∧ Bad u else ∃ junk, tail = 0 :: junk) : ∀ (is : List Item) (_ : ∀ i ∈ is, i.Ok) (t : List Byte) (w : Nat) (cb : List Byte)
    (_ : cb.length = 32) (args : List Arg) (fuel : Nat) (_ : (spell is ++ tail).length < fuel),
    Result d size ((render w is bad args).prepend t) (loop fuel false (spell is ++ tail) (mk d size t w cb args))
  | [], _, t, w, cb, hcb, args, fuel, hf => by
    obtain ⟨fuel, rfl⟩ : ∃ f, fuel = f + 1 := ⟨fuel - 1, by omega⟩
    cases bad with
    | false =>
      obtain ⟨junk, rfl⟩ := htail
      simp only [spell, List.map_nil, List.flatten_nil, List.nil_append, render, Outcome.prepend, List.append_nil, Bool.false_eq_true, if_false]
      rw [loop, rd_zero]
      simp only [ok_bind]
      rw [if_pos trivial]
      cases d with
      | none => rfl
      | some b =>
        have h2 := hd b rfl
        simp only [mk, Option.map_some, Option.isSome_some, if_true, Result]
        by_cases hb : b = []
        · rw [if_pos hb]
          subst hb
          simp only [List.length_nil, Nat.le_zero] at h2
          subst h2
          simp [put, wr]
        · rw [if_neg hb]
          have := List.length_pos_iff.2 hb
          rw [wr_put0 (by simp; omega) (by omega)]
          rfl
    | true =>
      obtain ⟨u, rfl, hu⟩ := htail
      simp only [spell, List.map_nil, List.flatten_nil, List.nil_append, render, Outcome.prepend, List.append_nil, if_true] at hf ⊢
      rw [loop, rd_zero]
      simp only [ok_bind]
      rw [if_neg (by decide), if_pos trivial, List.drop_one, List.tail_cons, bad_loop u hu _ fuel (by simp at hf; omega)]
      rfl
  | .lit c :: is, hok, t, w, cb, hcb, args, fuel, hf => by
    obtain ⟨fuel, rfl⟩ : ∃ f, fuel = f + 1 := ⟨fuel - 1, by omega⟩
    have hc := hok _ (List.mem_cons_self ..)
    have e : spell (.lit c :: is) ++ tail = c :: (spell is ++ tail) := rfl
    rw [e] at hf ⊢
    rw [loop, rd_zero]
    simp only [ok_bind]
    rw [if_neg hc.1, if_neg hc.2, emit_spec hd]
    simp only [ok_bind, List.drop_one, List.tail_cons]
    have := loop_spec hd bad tail htail is (fun i hi => hok i (List.mem_cons_of_mem _ hi)) (t ++ [c]) w cb hcb args fuel (by simp at hf ⊢; omega)
    rw [← prepend_prepend] at this
    exact this
  | .conv ps k :: is, hok, t, w, cb, hcb, args, fuel, hf => by
    obtain ⟨fuel, rfl⟩ : ∃ f, fuel = f + 1 := ⟨fuel - 1, by omega⟩
    have hc : PrecsOk ps := hok _ (List.mem_cons_self ..)
    have e : spell (.conv ps k :: is) ++ tail = ch '%' :: (spellPrecs ps ++ (k.spell ++ (spell is ++ tail))) := by
      simp [spell, Item.spell]
    rw [e] at hf ⊢
    rw [loop, rd_zero]
    simp only [ok_bind]
    rw [if_neg (by decide), if_pos trivial, List.drop_one, List.tail_cons]
    obtain ⟨c, r', e2, hnd⟩ := spell_head k (spell is ++ tail)
    have hlp := spellPrecs_length ps
    have hlk := kind_length k
    simp only [List.length_cons, List.length_append] at hf
    obtain ⟨fuel', hfu⟩ : ∃ f, fuel = (f + 1) + ps.length := ⟨fuel - ps.length - 1, by omega⟩
    rw [e2, hfu, loop_precs ps hc c r' hnd]
    have e3 : ({ mk d size t w cb args with width := pend ps (mk d size t w cb args).width } : St) = mk d size t (pend ps w) cb args := rfl
    rw [e3, ← e2, loop]
    have hcv := convert_spec hd t (pend ps w) cb hcb (spell is ++ tail) k args
    rw [render]
    revert hcv
    cases convText (pend ps w) k args with
    | text u w' args' =>
      rintro ⟨cb', hcb', h⟩
      rw [h]
      simp only [ok_bind]
      have := loop_spec hd bad tail htail is (fun i hi => hok i (List.mem_cons_of_mem _ hi)) (t ++ u) w' cb' hcb' args' fuel' (by simp only [List.length_append]; omega)
      rw [← prepend_prepend] at this
      exact this
    | fail =>
      rintro ⟨st', h1, h⟩
      rw [h]
      simp only [ok_bind, Outcome.prepend, List.append_nil, Result, h1]
      rfl
    | undef =>
      rintro ⟨u, h⟩
      rw [h]
      exact ⟨u, rfl⟩

theorem convText_num (w : Nat) (k : Kind) (hk : k ≠ .pct ∧ k ≠ .s ∧ k ≠ .c) (a : Arg) (args : List Arg) (x : Int) (hex lower : Bool) (hn : number k a = some (x, hex, lower)) :
    convText w k (a :: args) = if (if x < 0 then 1 else 0) + w + 1 ≤ 32 then
        .text (if hex then numText 16 (by decide) lower w x else numText 10 (by decide) lower w x) 0 args
      else .undef := by
  have e : convText w k (a :: args) = (match number k a with
    | none => .undef
    | some (x, hex, lower) =>
      if (if x < 0 then 1 else 0) + w + 1 ≤ 32 then
        .text (if hex then numText 16 (by decide) lower w x else numText 10 (by decide) lower w x) 0 args
      else .undef) := by
    cases k <;> first | rfl | (exfalso; simp at hk)
  rw [e, hn]

theorem sign_le (x : Int) : (if x < 0 then 1 else 0) ≤ 1 := by split <;> omega

theorem convText_dec (w : Nat) (hw : w ≤ 30) (k : Kind) (hk : k ≠ .pct ∧ k ≠ .s ∧ k ≠ .c) (a : Arg) (args : List Arg) (x : Int) (hn : number k a = some (x, false, false)) :
    convText w k (a :: args) = .text (numText 10 (by decide) false w x) 0 args := by
  rw [convText_num w k hk a args x _ _ hn, if_pos (by have := sign_le x; omega)]; rfl

theorem convText_hex (w : Nat) (hw : w ≤ 30) (k : Kind) (hk : k ≠ .pct ∧ k ≠ .s ∧ k ≠ .c) (a : Arg) (args : List Arg) (x : Int) (lower : Bool) (hn : number k a = some (x, true, lower)) :
    convText w k (a :: args) = .text (numText 16 (by decide) lower w x) 0 args := by
  rw [convText_num w k hk a args x _ _ hn, if_pos (by have := sign_le x; omega)]; rfl

/-! ### Every format is a list of items, or one followed by an unsupported conversion -/

theorem digit_of {c : Byte} (h : isNumber c = true) : digit (c.toNat - 48) = c ∧ c.toNat - 48 < 10 := by
  revert c
  decide +kernel

theorem conv_total (n : Nat) : ∀ (u : List Byte), u.length ≤ n → 
    (∃ ps k r, PrecsOk ps ∧ u = spellPrecs ps ++ (Kind.spell k ++ r)) ∨ Bad (u ++ [0]) := by
  have plain : ∀ (k : Kind) (c : Byte) (r : List Byte), k.spell = [c] → (∃ ps k r', PrecsOk ps ∧ c :: r = spellPrecs ps ++ (Kind.spell k ++ r')) := by
    intro k c r h
    exact ⟨[], k, r, by intro _ h; simp at h, by rw [h]; rfl⟩
  induction n with
  | zero =>
    intro u hu
    cases u with
    | nil => right; exact .char (by decide)
    | cons c u => simp at hu
  | succ n ih =>
    intro u hu
    cases u with
    | nil => right; exact .char (by decide)
    | cons c u =>
      by_cases hc : c ∈ bytes! "%.scdlzpuxX"
      · simp only [List.mem_cons, List.not_mem_nil, or_false] at hc
        rcases hc with rfl | rfl | rfl | rfl | rfl | rfl | rfl | rfl | rfl | rfl | rfl
        · left; exact plain .pct _ _ rfl
        · -- a precision
          by_cases hds : u.takeWhile isNumber = []
          · right
            cases u with
            | nil => exact .dot (c := 0) (r := []) (by unfold isDigit; decide)
            | cons c u =>
              refine .dot (c := c) (r := u ++ [0]) ?_
              rw [List.takeWhile_cons] at hds
              intro h
              rw [← isNumber_iff] at h
              rw [if_pos h] at hds
              simp at hds
          · have hall := List.all_takeWhile (p := isNumber) (l := u)
            rw [List.all_eq_true] at hall
            have hu2 := List.takeWhile_append_dropWhile (p := isNumber) (l := u)
            have hdr : ∀ c r, u.dropWhile isNumber = c :: r → ¬ isDigit c := by
              intro c r h
              have := List.head?_dropWhile_not isNumber u
              rw [h] at this
              simp only [List.head?_cons] at this
              rw [← isNumber_iff]
              simp only [this]
              simp
            generalize u.takeWhile isNumber = a at *
            generalize u.dropWhile isNumber = b at *
            subst hu2
            have e : (a.map fun c => c.toNat - 48).map digit = a := by
              rw [List.map_map]
              conv => rhs; rw [← List.map_id a]
              apply List.map_congr_left
              intro x hx
              exact (digit_of (hall x hx)).1
            have hlt : ∀ d ∈ (a.map fun c => c.toNat - 48), d < 10 := by
              intro d hd
              obtain ⟨x, hx, rfl⟩ := List.mem_map.1 hd
              exact (digit_of (hall x hx)).2
            have hne : (a.map fun c => c.toNat - 48) ≠ [] := by
              intro h
              exact hds (List.map_eq_nil_iff.1 h)
            generalize (a.map fun c => c.toNat - 48) = ds at *
            subst e
            rcases ih b (by simp at hu; omega) with ⟨ps, k, r, hps, rfl⟩ | hb
            · left
              refine ⟨ds :: ps, k, r, ?_, ?_⟩
              · intro x hx
                rcases List.mem_cons.1 hx with rfl | hx
                · exact ⟨hne, hlt⟩
                · exact hps x hx
              · rw [spellPrecs_cons, List.append_assoc]; rfl
            · right
              cases b with
              | nil =>
                have := Bad.prec (c := 0) (r := []) hne hlt (by unfold isDigit; decide) (by simpa using hb)
                rw [List.append_nil]
                exact this
              | cons c b =>
                have := Bad.prec (c := c) (r := b ++ [0]) hne hlt (hdr c b rfl) (by simpa using hb)
                have e : ch '.' :: (List.map digit ds ++ c :: b) ++ [0] = ch '.' :: List.map digit ds ++ c :: (b ++ [0]) := by simp
                exact e ▸ this
        · left; exact plain .s _ _ rfl
        · left; exact plain .c _ _ rfl
        · left; exact plain .d _ _ rfl
        · -- l
          cases u with
          | nil => right; exact .l (c := 0) (r := []) (by decide)
          | cons c u =>
            by_cases h1 : c ∈ bytes! "ldu"
            · simp only [List.mem_cons, List.not_mem_nil, or_false] at h1
              rcases h1 with rfl | rfl | rfl
              · cases u with
                | nil => right; exact .ll (c := 0) (r := []) (by decide)
                | cons c u =>
                  by_cases h2 : c ∈ bytes! "du"
                  · simp only [List.mem_cons, List.not_mem_nil, or_false] at h2
                    rcases h2 with rfl | rfl
                    · left; exact ⟨[], .lld, u, by intro _ h; simp at h, rfl⟩
                    · left; exact ⟨[], .llu, u, by intro _ h; simp at h, rfl⟩
                  · right; exact .ll (c := c) (r := u ++ [0]) h2
              · left; exact ⟨[], .ld, u, by intro _ h; simp at h, rfl⟩
              · left; exact ⟨[], .lu, u, by intro _ h; simp at h, rfl⟩
            · right; exact .l (c := c) (r := u ++ [0]) h1
        · -- z
          cases u with
          | nil => right; exact .z (c := 0) (r := []) (by decide)
          | cons c u =>
            by_cases h2 : c ∈ bytes! "du"
            · simp only [List.mem_cons, List.not_mem_nil, or_false] at h2
              rcases h2 with rfl | rfl
              · left; exact ⟨[], .zd, u, by intro _ h; simp at h, rfl⟩
              · left; exact ⟨[], .zu, u, by intro _ h; simp at h, rfl⟩
            · right; exact .z (c := c) (r := u ++ [0]) h2
        · left; exact plain .p _ _ rfl
        · left; exact plain .u _ _ rfl
        · left; exact plain .x _ _ rfl
        · left; exact plain .X _ _ rfl
      · right; exact .char (c := c) (r := u ++ [0]) hc

theorem parse_total (n : Nat) : ∀ (s : List Byte), s.length ≤ n → 0 ∉ s → ∃ is bad, Parses s is bad := by
  induction n with
  | zero =>
    intro s hs _
    cases s with
    | nil => exact ⟨[], false, by simp, rfl⟩
    | cons c s => simp at hs
  | succ n ih =>
    intro s hs h0
    cases s with
    | nil => exact ⟨[], false, by simp, rfl⟩
    | cons c s =>
      have hs0 : (0 : Byte) ∉ s := fun h => h0 (List.mem_cons_of_mem _ h)
      by_cases hc : c = ch '%'
      · subst hc
        rcases conv_total s.length s (Nat.le_refl _) with ⟨ps, k, r, hps, rfl⟩ | hb
        · obtain ⟨is, bad, h1, h2⟩ := ih r (by have := kind_length k; simp at hs; omega) (fun h => hs0 (List.mem_append.2 (Or.inr (List.mem_append.2 (Or.inr h)))))
          refine ⟨.conv ps k :: is, bad, ?_, ?_⟩
          · intro i hi
            rcases List.mem_cons.1 hi with rfl | hi
            · exact hps
            · exact h1 i hi
          · cases bad with
            | false => simp only [Bool.false_eq_true, if_false] at h2 ⊢; rw [h2]; simp [spell, Item.spell]
            | true =>
              simp only [if_true] at h2 ⊢
              obtain ⟨t, h2, h3⟩ := h2
              refine ⟨t, ?_, h3⟩
              have : ch '%' :: (spellPrecs ps ++ (k.spell ++ r)) ++ [0] = ch '%' :: (spellPrecs ps ++ (k.spell ++ (r ++ [0]))) := by simp
              rw [this, h2]
              simp [spell, Item.spell]
        · exact ⟨[], true, by simp, s ++ [0], rfl, hb⟩
      · obtain ⟨is, bad, h1, h2⟩ := ih s (by simp at hs; omega) hs0
        refine ⟨.lit c :: is, bad, ?_, ?_⟩
        · intro i hi
          rcases List.mem_cons.1 hi with rfl | hi
          · exact ⟨fun h => h0 (h ▸ List.mem_cons_self ..), hc⟩
          · exact h1 i hi
        · cases bad with
          | false => simp only [Bool.false_eq_true, if_false] at h2 ⊢; rw [h2]; rfl
          | true =>
            simp only [if_true] at h2 ⊢
            obtain ⟨t, h2, h3⟩ := h2
            exact ⟨t, by rw [List.cons_append, h2]; rfl, h3⟩

theorem bad_append {u : List Byte} (h : Bad u) (junk : List Byte) : Bad (u ++ junk) := by
  induction h with
  | char h => exact .char h
  | dot h => exact .dot h
  | l h => exact .l h
  | ll h => exact .ll h
  | z h => exact .z h
  | prec h0 h hc _ ih =>
    rw [List.append_assoc]
    exact .prec h0 h hc ih

end Ulz.Format

import Verif.Model.Base64
import Verif.Spec.Base64
import Verif.Proofs.Base
/-! Lemmas for the base64 properties. -/
set_option linter.unusedSimpArgs false
set_option linter.unusedVariables false
namespace Ulz.Base64
open Spec

theorem rd_tbl {i : Nat} (h : i < 64) : rd tbl i = .ok (sym i) := by
  have : ∀ i : Fin 64, rd tbl i = .ok (sym i) := by decide
  exact this ⟨i, h⟩

theorem chrpos_sym {i : Nat} (h : i < 64) : chrpos (sym i) = some i := by
  have : ∀ i : Fin 64, chrpos (sym i) = some i.val := by decide
  exact this ⟨i, h⟩

theorem sym_ne {i : Nat} (h : i < 64) : sym i ≠ 61 ∧ sym i ≠ 0 := by
  have : ∀ i : Fin 64, sym i ≠ 61 ∧ sym i ≠ 0 := by decide
  exact this ⟨i, h⟩

theorem chrpos_some {c : Byte} {p : Nat} (h : chrpos c = some p) : p < 64 ∧ c = sym p := by
  have : ∀ c : Byte, ∀ p, chrpos c = some p → p < 64 ∧ c = sym p := by
    intro c p
    unfold chrpos
    simp only []
    split
    · rename_i hlt
      intro h; cases h
      refine ⟨hlt, ?_⟩
      revert hlt; revert c; decide
    · simp
  exact this c p h

theorem ch_eq : ch '=' = 61 := by decide

theorem or3 (a b c : Byte) : a.toNat <<< 16 ||| b.toNat <<< 8 ||| c.toNat
    = a.toNat * 65536 + b.toNat * 256 + c.toNat := by
  have ha := a.isLt; have hb := b.isLt; have hc := c.isLt
  have h1 : b.toNat <<< 8 < 2^16 := by rw [Nat.shiftLeft_eq]; omega
  rw [← Nat.shiftLeft_add_eq_or_of_lt h1]
  have h2 : a.toNat <<< 16 + b.toNat <<< 8 = (a.toNat <<< 8 + b.toNat) <<< 8 := by
    simp only [Nat.shiftLeft_eq]; omega
  rw [h2, ← Nat.shiftLeft_add_eq_or_of_lt (by omega)]
  simp only [Nat.shiftLeft_eq]; omega

theorem or2 (a b : Byte) : a.toNat <<< 16 ||| b.toNat <<< 8
    = a.toNat * 65536 + b.toNat * 256 := by
  have := or3 a b 0
  simpa using this

theorem or1 (a : Byte) : a.toNat <<< 16 = a.toNat * 65536 := by simp [Nat.shiftLeft_eq]

theorem and63 (n : Nat) : n &&& 63 = n % 64 := Nat.and_two_pow_sub_one_eq_mod n 6
theorem and255 (n : Nat) : n &&& 255 = n % 256 := Nat.and_two_pow_sub_one_eq_mod n 8

theorem emit_put {b xs : List Byte} {d n i : Nat} (hd : d = xs.length) (h : d + 4 ≤ b.length) :
    emit (put b 0 xs) d n i = .ok (put b 0 (xs ++
      [sym (n / 2^18 % 64), sym (n / 2^12 % 64),
       if i ≠ 0 then sym (n / 2^6 % 64) else 61,
       if i = 2 then sym (n % 64) else 61])) := by
  have hr1 := rd_tbl (i := n / 2^18 % 64) (Nat.mod_lt _ (by omega))
  have hr2 := rd_tbl (i := n / 2^12 % 64) (Nat.mod_lt _ (by omega))
  have hr3 := rd_tbl (i := n / 2^6 % 64) (Nat.mod_lt _ (by omega))
  have hr4 := rd_tbl (i := n % 64) (Nat.mod_lt _ (by omega))
  unfold emit
  simp only [Nat.shiftRight_eq_div_pow, and63, hr1, hr2, hr3, hr4, ok_bind, ch_eq, pure_eq_ok]
  rw [wr_put0 hd (by omega)]
  simp only [ok_bind]
  rw [wr_put0 (by simp; omega) (by omega)]
  by_cases h0 : i = 0
  · subst h0
    simp only [ok_bind, ne_eq, not_true_eq_false, if_false]
    rw [wr_put0 (by simp; omega) (by omega)]
    simp only [ok_bind]
    rw [if_neg (by omega)]
    rw [wr_put0 (by simp; omega) (by omega)]
    simp
  · simp only [ok_bind, ne_eq, h0, not_false_eq_true, if_true]
    rw [wr_put0 (by simp; omega) (by omega)]
    simp only [ok_bind]
    by_cases h2 : i = 2
    · simp only [h2, if_true, ok_bind]
      rw [wr_put0 (by simp; omega) (by omega)]
      simp
    · rw [if_neg h2]
      rw [wr_put0 (by simp; omega) (by omega)]
      simp [h2]

theorem encode_length : ∀ s : List Byte, (encode s).length = 4 * ((s.length + 2) / 3)
  | [] => rfl
  | [_] => by simp [encode]
  | [_, _] => by simp [encode]
  | a :: b :: c :: r => by
    have ih := encode_length r
    simp only [encode, List.length_cons, ih]
    omega

theorem encLoop_put (b : List Byte) : ∀ (s xs : List Byte) (d : Nat), d = xs.length →
    d + (encode s).length + 1 ≤ b.length →
    encLoop (put b 0 xs) d s = .ok (put b 0 (xs ++ encode s ++ [0]))
  | [], xs, d, hd, h => by
    simp only [encLoop, encode, List.append_nil, List.length_nil] at *
    exact wr_put0 hd (by omega)
  | [a], xs, d, hd, h => by
    have ha := a.isLt
    simp only [encLoop, encode, List.length_cons, List.length_nil] at *
    rw [emit_put hd (by omega), or1]
    simp only [ok_bind]
    rw [wr_put0 (by simp; omega) (by omega)]
    simp only [ne_eq, not_true_eq_false, if_false]
    have e1 : a.toNat * 65536 / 2^18 % 64 = a.toNat / 4 := by omega
    have e2 : a.toNat * 65536 / 2^12 % 64 = a.toNat % 4 * 16 := by omega
    rw [e1, e2]; simp
  | [a, c], xs, d, hd, h => by
    have ha := a.isLt; have hc := c.isLt
    simp only [encLoop, encode, List.length_cons, List.length_nil] at *
    rw [emit_put hd (by omega), or2]
    simp only [ok_bind]
    rw [wr_put0 (by simp; omega) (by omega)]
    have e1 : (a.toNat * 65536 + c.toNat * 256) / 2^18 % 64 = a.toNat / 4 := by omega
    have e2 : (a.toNat * 65536 + c.toNat * 256) / 2^12 % 64 = a.toNat % 4 * 16 + c.toNat / 16 := by omega
    have e3 : (a.toNat * 65536 + c.toNat * 256) / 2^6 % 64 = c.toNat % 16 * 4 := by omega
    rw [e1, e2, e3]; simp
  | a :: c :: e :: r, xs, d, hd, h => by
    have ha := a.isLt; have hc := c.isLt; have he := e.isLt
    simp only [encLoop, encode, List.length_cons] at *
    rw [emit_put hd (by omega), or3]
    simp only [ok_bind]
    rw [encLoop_put b r _ _ (by simp; omega) (by omega)]
    have e1 : (a.toNat * 65536 + c.toNat * 256 + e.toNat) / 2^18 % 64 = a.toNat / 4 := by omega
    have e2 : (a.toNat * 65536 + c.toNat * 256 + e.toNat) / 2^12 % 64 = a.toNat % 4 * 16 + c.toNat / 16 := by omega
    have e3 : (a.toNat * 65536 + c.toNat * 256 + e.toNat) / 2^6 % 64 = c.toNat % 16 * 4 + e.toNat / 64 := by omega
    have e4 : (a.toNat * 65536 + c.toNat * 256 + e.toNat) % 64 = e.toNat % 64 := by omega
    rw [e1, e2, e3, e4]; simp

/-! ### Decoder -/

theorem decPush_safe {st : Dec} {p : Nat} (hp : st.d + st.l = st.dst.length) (hc : st.cnt < 2^31 - 1) :
    ∃ st' stop, decPush st p = .ok (st', stop) ∧ st'.dst.length = st.dst.length ∧
      (stop = false → st'.d + st'.l = st'.dst.length ∧ st'.cnt = st.cnt + 1 ∧ st'.skip = st.skip ∧
        (if (st.cnt + 1) % 4 = 0 then st'.l + 3 = st.l else st'.l = st.l)) := by
  unfold decPush
  rw [if_neg (by omega)]
  simp only []
  by_cases h4 : (st.cnt + 1) % 4 = 0
  · simp only [h4, if_true]
    by_cases hl : st.l < 3
    · exact ⟨st, true, by simp [hl], rfl, by simp⟩
    · simp only [hl, if_false]
      rw [wr_ok (by omega)]
      simp only [ok_bind]
      rw [wr_ok (by simp; omega)]
      simp only [ok_bind]
      rw [wr_ok (by simp; omega)]
      refine ⟨_, _, rfl, by simp, ?_⟩
      intro _
      refine ⟨by simp; omega, rfl, rfl, by simp; omega⟩
  · simp only [h4, if_false]
    exact ⟨_, _, rfl, rfl, fun _ => ⟨hp, rfl, rfl, rfl⟩⟩

/-- Safety of the decoder loop, and soundness of acceptance. -/
theorem decLoop_sound (junk : List Byte) : ∀ (s : List Byte) (st : Dec), 0 ∉ s →
    st.d + st.l = st.dst.length → st.cnt + s.length < 2^31 → st.skip ≤ 2 →
    ∃ d r, decLoop st (s ++ 0 :: junk) = .ok (d, r) ∧ d.length = st.dst.length ∧
      (r ≠ 0 → ∃ v pad, (∀ x ∈ v, x < 64) ∧ s = v.map sym ++ List.replicate pad 61 ∧
        st.skip + pad ≤ 2 ∧ (st.skip ≠ 0 → v = []) ∧ (st.cnt + s.length) % 4 = 0 ∧
        3 * ((st.cnt + s.length) / 4) - 3 * (st.cnt / 4) < st.l) := by
  intro s
  induction s with
  | nil =>
    intro st _ hl _ hskip
    simp only [List.nil_append, decLoop]
    rw [if_neg (by decide), if_pos trivial]
    by_cases hc : st.cnt % 4 ≠ 0 ∨ st.l = 0
    · exact ⟨st.dst, 0, by simp [hc], rfl, by simp⟩
    · rw [if_neg hc]
      rw [not_or] at hc
      rw [wr_ok (by omega)]
      refine ⟨_, _, rfl, by simp, fun _ => ⟨[], 0, by simp, by simp, by omega, by simp, ?_, ?_⟩⟩
      · simp only [List.length_nil]; omega
      · simp only [List.length_nil]; omega
  | cons c s ih =>
    intro st h0 hl hcnt hskip
    simp only [List.mem_cons, not_or] at h0
    simp only [List.length_cons] at hcnt
    have hc0 : c ≠ 0 := fun h => h0.1 h.symm
    simp only [List.cons_append, decLoop]
    by_cases hceq : c = ch '='
    · rw [if_pos hceq]
      by_cases hs : st.skip + 1 > 2
      · exact ⟨st.dst, 0, by simp [hs], rfl, by simp⟩
      · rw [if_neg hs]
        obtain ⟨st', stop, he, hlen, hst⟩ :=
          decPush_safe (st := { st with skip := st.skip + 1 }) (p := 0) hl (by simp; omega)
        rw [he]
        simp only [ok_bind]
        cases stop with
        | true => exact ⟨st'.dst, 0, by simp, hlen, by simp⟩
        | false =>
          obtain ⟨hd', hcnt', hskip', hl'⟩ := hst rfl
          simp only [Bool.false_eq_true, if_false]
          obtain ⟨d, r, hr, hdl, hacc⟩ := ih st' h0.2 hd' (by rw [hcnt']; simp; omega)
            (by rw [hskip']; simp; omega)
          refine ⟨d, r, hr, by rw [hdl, hlen], fun hne => ?_⟩
          obtain ⟨v, pad, hv, hsv, hpad, hvn, hmod, hfit⟩ := hacc hne
          have hskip'' : st'.skip = st.skip + 1 := hskip'
          have hcnt'' : st'.cnt = st.cnt + 1 := hcnt'
          have hvnil : v = [] := hvn (by omega)
          subst hvnil
          refine ⟨[], pad + 1, by simp, ?_, by omega, by simp, ?_, ?_⟩
          · rw [hceq, ch_eq, hsv]; simp [List.replicate_succ]
          · simp only [List.length_cons]; omega
          · simp only [List.length_cons]
            simp only [] at hl'
            split at hl' <;> omega
    · rw [if_neg hceq, if_neg hc0]
      by_cases hs : st.skip ≠ 0
      · rw [if_pos hs]; exact ⟨st.dst, 0, rfl, rfl, by simp⟩
      · rw [if_neg hs]
        cases hp : chrpos c with
        | none => exact ⟨st.dst, 0, rfl, rfl, by simp⟩
        | some p =>
          obtain ⟨hplt, hpe⟩ := chrpos_some hp
          simp only []
          obtain ⟨st', stop, he, hlen, hst⟩ := decPush_safe (st := st) (p := p) hl (by omega)
          rw [he]
          simp only [ok_bind]
          cases stop with
          | true => exact ⟨st'.dst, 0, by simp, hlen, by simp⟩
          | false =>
            obtain ⟨hd', hcnt', hskip', hl'⟩ := hst rfl
            simp only [Bool.false_eq_true, if_false]
            obtain ⟨d, r, hr, hdl, hacc⟩ := ih st' h0.2 hd' (by omega) (by omega)
            refine ⟨d, r, hr, by rw [hdl, hlen], fun hne => ?_⟩
            obtain ⟨v, pad, hv, hsv, hpad, hvn, hmod, hfit⟩ := hacc hne
            refine ⟨p :: v, pad, ?_, ?_, by omega, by omega, ?_, ?_⟩
            · intro x hx
              rcases List.mem_cons.1 hx with rfl | hx
              · exact hplt
              · exact hv x hx
            · rw [hpe, hsv]; simp
            · simp only [List.length_cons]; omega
            · simp only [List.length_cons]
              split at hl' <;> omega

theorem decLoop_sym {st : Dec} {p : Nat} {s : List Byte} (hp : p < 64) (hs : st.skip = 0) :
    decLoop st (sym p :: s) = (do
        let (st', stop) ← decPush st p
        if stop then pure (st'.dst, 0) else decLoop st' s) := by
  rw [decLoop, if_neg (by rw [ch_eq]; exact (sym_ne hp).1), if_neg (sym_ne hp).2,
    if_neg (by omega), chrpos_sym hp]

theorem decLoop_pad {st : Dec} {s : List Byte} (hs : st.skip < 2) :
    decLoop st (61 :: s) = (do
        let (st', stop) ← decPush { st with skip := st.skip + 1 } 0
        if stop then pure (st'.dst, 0) else decLoop st' s) := by
  rw [decLoop, if_pos (by decide)]
  simp only []
  rw [if_neg (by omega)]

theorem decPush_mid {st : Dec} {p : Nat} (hp : p < 64) (h : (st.cnt + 1) % 4 ≠ 0) (hc : st.cnt < 2^31 - 1) :
    decPush st p = .ok ({ st with n := st.n * 64 + p, cnt := st.cnt + 1 }, false) := by
  unfold decPush
  rw [if_neg (by omega)]
  simp only [h, if_false, pure_eq_ok]
  rw [← Nat.shiftLeft_add_eq_or_of_lt (by omega), Nat.shiftLeft_eq]

theorem decPush_last {b xs : List Byte} {st : Dec} {p : Nat} (hp : p < 64) (h : (st.cnt + 1) % 4 = 0)
    (hc : st.cnt < 2^31 - 1) (hd : st.d = xs.length) (hb : st.dst = put b 0 xs) (hl : 3 ≤ st.l)
    (hlen : st.d + st.l ≤ b.length) :
    decPush st p = .ok (⟨put b 0 (xs ++ [BitVec.ofNat 8 ((st.n * 64 + p) / 65536),
        BitVec.ofNat 8 ((st.n * 64 + p) / 256 % 256), BitVec.ofNat 8 ((st.n * 64 + p) % 256)]),
        st.d + 3, st.l - 3, st.o + (3 - st.skip), 0, st.cnt + 1, st.skip⟩, false) := by
  unfold decPush
  rw [if_neg (by omega)]
  simp only [h, if_true]
  rw [if_neg (by omega), ← Nat.shiftLeft_add_eq_or_of_lt (by omega)]
  simp only [Nat.shiftLeft_eq, Nat.shiftRight_eq_div_pow, and255]
  rw [hb, wr_put0 hd (by omega)]
  simp only [ok_bind]
  rw [wr_put0 (by simp; omega) (by omega)]
  simp only [ok_bind]
  rw [wr_put0 (by simp; omega) (by omega)]
  simp

theorem ofNat8_mod (n : Nat) : BitVec.ofNat 8 (n % 256) = BitVec.ofNat 8 n := by
  apply BitVec.eq_of_toNat_eq; simp

/-- What the decoder does on well-formed text. -/
theorem decLoop_complete (b junk : List Byte) : ∀ (v : List Nat) (pad : Nat) (st : Dec) (xs : List Byte),
    (∀ x ∈ v, x < 64) → pad ≤ 2 → (v.length + pad) % 4 = 0 → st.cnt % 4 = 0 → st.n = 0 → st.skip = 0 →
    st.cnt + v.length + pad < 2^31 → st.dst = put b 0 xs → st.d = xs.length →
    st.d + st.l = b.length → 3 * ((v.length + pad) / 4) < st.l →
    decLoop st (v.map sym ++ List.replicate pad 61 ++ 0 :: junk) =
      .ok (put b 0 (xs ++ bytesOf (v ++ List.replicate pad 0) ++ [0]),
        st.o + (3 * ((v.length + pad) / 4) - pad))
  | [], pad, st, xs, hv, hpad, hmod, hcnt, hn, hs, hc, hb, hd, hl, hfit => by
    simp only [List.length_nil] at *
    have : pad = 0 := by omega
    subst this
    simp only [List.map_nil, List.replicate_zero, List.nil_append, decLoop, bytesOf]
    rw [if_neg (by decide), if_pos trivial, if_neg (by omega), hb, wr_put0 hd (by omega)]
    simp
  | [a], pad, st, xs, hv, hpad, hmod, hcnt, hn, hs, hc, hb, hd, hl, hfit => by
    simp only [List.length_cons, List.length_nil] at *; omega
  | [a, c], pad, st, xs, hv, hpad, hmod, hcnt, hn, hs, hc, hb, hd, hl, hfit => by
    simp only [List.length_cons, List.length_nil] at *
    have : pad = 2 := by omega
    subst this
    have ha : a < 64 := hv a (by simp)
    have hcc : c < 64 := hv c (by simp)
    simp only [List.map_cons, List.map_nil, List.replicate, List.cons_append, List.nil_append]
    rw [decLoop_sym ha hs, decPush_mid ha (by omega) (by omega)]
    simp only [ok_bind, Bool.false_eq_true, if_false]
    rw [decLoop_sym hcc (by exact hs), decPush_mid hcc (by simp only []; omega) (by simp only []; omega)]
    simp only [ok_bind, Bool.false_eq_true, if_false]
    rw [decLoop_pad (by simp only []; omega), decPush_mid (by omega) (by simp only []; omega) (by simp only []; omega)]
    simp only [ok_bind, Bool.false_eq_true, if_false]
    rw [decLoop_pad (by simp only []; omega), decPush_last (b := b) (xs := xs) (by omega)
      (by simp only []; omega) (by simp only []; omega) (by exact hd) (by exact hb) (by simp only []; omega) (by simp only []; omega)]
    simp only [ok_bind, Bool.false_eq_true, if_false, decLoop]
    rw [if_neg (by decide), if_pos trivial, if_neg (by omega), wr_put0 (by simp; omega) (by omega)]
    simp only [ok_bind, pure_eq_ok, hn, hs, bytesOf]
    congr 2
    · congr 1
      simp only [List.append_assoc, List.cons_append, List.nil_append]
      congr 2
      · congr 1; omega
      · congr 1
        · rw [ofNat8_mod]; apply BitVec.eq_of_toNat_eq; simp only [BitVec.toNat_ofNat]; omega
        · congr 1; rw [ofNat8_mod]; apply BitVec.eq_of_toNat_eq; simp only [BitVec.toNat_ofNat]; omega
  | [a, c, e], pad, st, xs, hv, hpad, hmod, hcnt, hn, hs, hc, hb, hd, hl, hfit => by
    simp only [List.length_cons, List.length_nil] at *
    have : pad = 1 := by omega
    subst this
    have ha : a < 64 := hv a (by simp)
    have hcc : c < 64 := hv c (by simp)
    have he : e < 64 := hv e (by simp)
    simp only [List.map_cons, List.map_nil, List.replicate, List.cons_append, List.nil_append]
    rw [decLoop_sym ha hs, decPush_mid ha (by omega) (by omega)]
    simp only [ok_bind, Bool.false_eq_true, if_false]
    rw [decLoop_sym hcc (by exact hs), decPush_mid hcc (by simp only []; omega) (by simp only []; omega)]
    simp only [ok_bind, Bool.false_eq_true, if_false]
    rw [decLoop_sym he (by exact hs), decPush_mid he (by simp only []; omega) (by simp only []; omega)]
    simp only [ok_bind, Bool.false_eq_true, if_false]
    rw [decLoop_pad (by simp only []; omega), decPush_last (b := b) (xs := xs) (by omega)
      (by simp only []; omega) (by simp only []; omega) (by exact hd) (by exact hb) (by simp only []; omega) (by simp only []; omega)]
    simp only [ok_bind, Bool.false_eq_true, if_false, decLoop]
    rw [if_neg (by decide), if_pos trivial, if_neg (by omega), wr_put0 (by simp; omega) (by omega)]
    simp only [ok_bind, pure_eq_ok, hn, hs, bytesOf]
    congr 2
    · congr 1
      simp only [List.append_assoc, List.cons_append, List.nil_append]
      congr 2
      · congr 1; omega
      · congr 1
        · rw [ofNat8_mod]; apply BitVec.eq_of_toNat_eq; simp only [BitVec.toNat_ofNat]; omega
        · congr 1; rw [ofNat8_mod]; apply BitVec.eq_of_toNat_eq; simp only [BitVec.toNat_ofNat]; omega
  | a :: c :: e :: f :: v, pad, st, xs, hv, hpad, hmod, hcnt, hn, hs, hc, hb, hd, hl, hfit => by
    simp only [List.length_cons] at *
    have ha : a < 64 := hv a (by simp)
    have hcc : c < 64 := hv c (by simp)
    have he : e < 64 := hv e (by simp)
    have hf : f < 64 := hv f (by simp)
    simp only [List.map_cons, List.cons_append]
    rw [decLoop_sym ha hs, decPush_mid ha (by omega) (by omega)]
    simp only [ok_bind, Bool.false_eq_true, if_false]
    rw [decLoop_sym hcc (by exact hs), decPush_mid hcc (by simp only []; omega) (by simp only []; omega)]
    simp only [ok_bind, Bool.false_eq_true, if_false]
    rw [decLoop_sym he (by exact hs), decPush_mid he (by simp only []; omega) (by simp only []; omega)]
    simp only [ok_bind, Bool.false_eq_true, if_false]
    rw [decLoop_sym hf (by exact hs), decPush_last (b := b) (xs := xs) hf
      (by simp only []; omega) (by simp only []; omega) (by exact hd) (by exact hb) (by simp only []; omega) (by simp only []; omega)]
    simp only [ok_bind, Bool.false_eq_true, if_false]
    rw [decLoop_complete b junk v pad _ _ (fun x hx => hv x (by simp [hx])) hpad (by omega)
      (by simp only []; omega) (by exact rfl) (by exact hs) (by simp only []; omega) (by exact rfl) (by simp; omega) (by simp only []; omega)
      (by simp only []; omega)]
    simp only [hn, hs, bytesOf, List.cons_append]
    congr 2
    · congr 1
      simp only [List.append_assoc, List.cons_append, List.nil_append]
      congr 2
      · congr 1; omega
      · congr 1
        · rw [ofNat8_mod]; apply BitVec.eq_of_toNat_eq; simp only [BitVec.toNat_ofNat]; omega
        · congr 1; rw [ofNat8_mod]; apply BitVec.eq_of_toNat_eq; simp only [BitVec.toNat_ofNat]; omega
    · omega

/-- The text produced by the encoder is well-formed and denotes the bytes (plus zero fill). -/
theorem encode_isText : ∀ s : List Byte, ∃ v pad fill, IsText (encode s) v pad ∧
    v.length + pad = 4 * ((s.length + 2) / 3) ∧ 3 * ((s.length + 2) / 3) - pad = s.length ∧
    bytesOf (v ++ List.replicate pad 0) = s ++ fill
  | [] => ⟨[], 0, [], ⟨by simp, by omega, rfl, rfl⟩, rfl, rfl, rfl⟩
  | [a] => by
    have ha := a.isLt
    refine ⟨[a.toNat / 4, a.toNat % 4 * 16], 2, [0, 0], ⟨?_, by omega, by simp [encode, List.replicate], by simp [encode]⟩, by simp, by simp, ?_⟩
    · simp only [List.mem_cons, List.not_mem_nil, or_false]
      rintro x (rfl | rfl) <;> omega
    · simp only [List.replicate, List.cons_append, List.nil_append, bytesOf]
      congr 1
      · apply BitVec.eq_of_toNat_eq; simp only [BitVec.toNat_ofNat]; omega
      · congr 1
        apply BitVec.eq_of_toNat_eq
        simp
  | [a, b] => by
    have ha := a.isLt; have hb := b.isLt
    refine ⟨[a.toNat / 4, a.toNat % 4 * 16 + b.toNat / 16, b.toNat % 16 * 4], 1, [0],
      ⟨?_, by omega, by simp [encode, List.replicate], by simp [encode]⟩, by simp, by simp, ?_⟩
    · simp only [List.mem_cons, List.not_mem_nil, or_false]
      rintro x (rfl | rfl | rfl) <;> omega
    · simp only [List.replicate, List.cons_append, List.nil_append, bytesOf]
      congr 1
      · apply BitVec.eq_of_toNat_eq; simp only [BitVec.toNat_ofNat]; omega
      · congr 1
        · apply BitVec.eq_of_toNat_eq; simp only [BitVec.toNat_ofNat]; omega
        · congr 1
          apply BitVec.eq_of_toNat_eq
          simp
  | a :: b :: c :: r => by
    have ha := a.isLt; have hb := b.isLt; have hc := c.isLt
    obtain ⟨v, pad, fill, ⟨hv, hp, he, hm⟩, h1, h2, h3⟩ := encode_isText r
    refine ⟨a.toNat / 4 :: (a.toNat % 4 * 16 + b.toNat / 16) :: (b.toNat % 16 * 4 + c.toNat / 64) ::
      (c.toNat % 64) :: v, pad, fill, ⟨?_, hp, by simp [encode, he], ?_⟩, ?_, ?_, ?_⟩
    · intro x hx
      simp only [List.mem_cons] at hx
      rcases hx with rfl | rfl | rfl | rfl | hx
      · omega
      · omega
      · omega
      · omega
      · exact hv x hx
    · rw [encode_length]; omega
    · simp only [List.length_cons]; omega
    · simp only [List.length_cons]; omega
    · simp only [List.cons_append, bytesOf, h3]
      congr 1
      · apply BitVec.eq_of_toNat_eq; simp only [BitVec.toNat_ofNat]; omega
      · congr 1
        · apply BitVec.eq_of_toNat_eq; simp only [BitVec.toNat_ofNat]; omega
        · congr 1
          apply BitVec.eq_of_toNat_eq; simp only [BitVec.toNat_ofNat]; omega

theorem encode_no_zero (s : List Byte) : 0 ∉ encode s := by
  obtain ⟨v, pad, _, ⟨hv, _, he, _⟩, _⟩ := encode_isText s
  rw [he]
  simp only [List.mem_append, List.mem_map, not_or, List.mem_replicate]
  refine ⟨?_, ?_⟩
  · rintro ⟨x, hx, h0⟩
    exact (sym_ne (hv x hx)).2 h0
  · rintro ⟨_, h⟩; exact absurd h (by decide)

/-! ### base64enc_str -/

theorem encStrLoop_put (b junk : List Byte) : ∀ (s xs : List Byte) (d l : Nat), 0 ∉ s → d = xs.length →
    d + l = b.length →
    ∃ out, encStrLoop (put b 0 xs) d l (s ++ 0 :: junk) =
        .ok (out, if (encode s).length < l then 1 else 0) ∧ out.length = b.length ∧
      ((encode s).length < l → out = put b 0 (xs ++ encode s ++ [0]))
  | [], xs, d, l, h0, hd, hl => by
    simp only [List.nil_append]
    rw [encStrLoop.eq_def]; simp only []; rw [if_neg (by simp)]
    by_cases hl0 : l = 0
    · refine ⟨put b 0 xs, ?_, put_length (by omega), ?_⟩
      · simp [hl0]
      · simp [encode, hl0]
    · refine ⟨put b 0 (xs ++ [0]), ?_, put_length (by simp; omega), by simp [encode]⟩
      rw [if_pos hl0, wr_put0 hd (by omega)]
      simp [encode, Nat.pos_of_ne_zero hl0]
  | a :: s, xs, d, l, h0, hd, hl => by
    have ha0 : a ≠ 0 := by intro h; subst h; simp at h0
    by_cases hl4 : l > 4
    case neg =>
      rw [List.cons_append, encStrLoop.eq_def]; simp only []; rw [if_neg (by omega)]
      have hge : 4 ≤ (encode (a :: s)).length := by rw [encode_length]; simp; omega
      rw [if_neg (c := (encode (a :: s)).length < l) (by omega)]
      by_cases hl0 : l = 0
      · refine ⟨put b 0 xs, by simp [hl0], put_length (by omega), by omega⟩
      · refine ⟨put b 0 (xs ++ [0]), ?_, put_length (by simp; omega), by omega⟩
        rw [if_pos hl0, wr_put0 hd (by omega)]
        simp only [ok_bind, pure_eq_ok, if_neg ha0]
    case pos =>
    match s with
    | [] =>
      rw [List.cons_append, List.nil_append, encStrLoop.eq_def]; simp only []; rw [if_pos ⟨ha0, hl4⟩]
      simp only [ne_eq, not_true_eq_false, if_false]
      have ha := a.isLt
      rw [emit_put hd (by omega)]
      simp only [ok_bind]
      generalize hxs : (xs ++ _) = xs'
      obtain ⟨out, h1, h2, h3⟩ := encStrLoop_put b junk [] xs' (d+4) (l-4) (by simp) (by rw [← hxs]; simp; omega) (by omega)
      simp only [List.nil_append] at h1
      have hz : (encode []).length = 0 := rfl
      have hz1 : (encode [a]).length = 4 := rfl
      rw [hz] at h1 h3
      refine ⟨out, ?_, h2, ?_⟩
      · rw [h1, hz1, if_pos (by omega), if_pos (by omega)]
      · intro hlt
        rw [h3 (by omega), ← hxs, or1]
        simp only [ne_eq, not_true_eq_false, if_false, encode]
        have e1 : a.toNat * 65536 / 2^18 % 64 = a.toNat / 4 := by omega
        have e2 : a.toNat * 65536 / 2^12 % 64 = a.toNat % 4 * 16 := by omega
        rw [e1, e2]; simp
    | [c] =>
      have hc0 : c ≠ 0 := by intro h; subst h; simp at h0
      rw [List.cons_append, List.cons_append, List.nil_append, encStrLoop.eq_def]; simp only []; rw [if_pos ⟨ha0, hl4⟩]
      simp only [ne_eq, hc0, not_false_eq_true, not_true_eq_false, if_true, if_false]
      have ha := a.isLt; have hc := c.isLt
      rw [emit_put hd (by omega)]
      simp only [ok_bind]
      generalize hxs : (xs ++ _) = xs'
      obtain ⟨out, h1, h2, h3⟩ := encStrLoop_put b junk [] xs' (d+4) (l-4) (by simp) (by rw [← hxs]; simp; omega) (by omega)
      simp only [List.nil_append] at h1
      have hz : (encode []).length = 0 := rfl
      have hz1 : (encode [a, c]).length = 4 := rfl
      rw [hz] at h1 h3
      refine ⟨out, ?_, h2, ?_⟩
      · rw [h1, hz1, if_pos (by omega), if_pos (by omega)]
      · intro hlt
        rw [h3 (by omega), ← hxs, or2]
        simp only [encode]
        have e1 : (a.toNat * 65536 + c.toNat * 256) / 2^18 % 64 = a.toNat / 4 := by omega
        have e2 : (a.toNat * 65536 + c.toNat * 256) / 2^12 % 64 = a.toNat % 4 * 16 + c.toNat / 16 := by omega
        have e3 : (a.toNat * 65536 + c.toNat * 256) / 2^6 % 64 = c.toNat % 16 * 4 := by omega
        rw [e1, e2, e3]; simp
    | c :: e :: r =>
      have hc0 : c ≠ 0 := by intro h; subst h; simp at h0
      have he0 : e ≠ 0 := by intro h; subst h; simp at h0
      have hr0 : 0 ∉ r := by simp only [List.mem_cons, not_or] at h0; exact h0.2.2.2
      simp only [List.cons_append]
      rw [encStrLoop.eq_def]; simp only []; rw [if_pos ⟨ha0, hl4⟩]
      simp only [ne_eq, hc0, he0, not_false_eq_true, if_true]
      have ha := a.isLt; have hc := c.isLt; have he := e.isLt
      rw [emit_put hd (by omega)]
      simp only [ok_bind]
      generalize hxs : (xs ++ _) = xs'
      obtain ⟨out, h1, h2, h3⟩ := encStrLoop_put b junk r xs' (d+4) (l-4) hr0 (by rw [← hxs]; simp; omega) (by omega)
      have hz : (encode (a :: c :: e :: r)).length = (encode r).length + 4 := rfl
      refine ⟨out, ?_, h2, ?_⟩
      · rw [h1, hz]
        by_cases hcase : (encode r).length < l - 4
        · rw [if_pos hcase, if_pos (by omega)]
        · rw [if_neg hcase, if_neg (by omega)]
      · intro hlt
        rw [h3 (by omega), ← hxs, or3]
        simp only [encode]
        have e1 : (a.toNat * 65536 + c.toNat * 256 + e.toNat) / 2^18 % 64 = a.toNat / 4 := by omega
        have e2 : (a.toNat * 65536 + c.toNat * 256 + e.toNat) / 2^12 % 64 = a.toNat % 4 * 16 + c.toNat / 16 := by omega
        have e3 : (a.toNat * 65536 + c.toNat * 256 + e.toNat) / 2^6 % 64 = c.toNat % 16 * 4 + e.toNat / 64 := by omega
        have e4 : (a.toNat * 65536 + c.toNat * 256 + e.toNat) % 64 = e.toNat % 64 := by omega
        rw [e1, e2, e3, e4]; simp
  termination_by s => s.length

/-! ### Sizes -/

theorem bytesOf_length : (s : List Nat) → (bytesOf s).length = 3 * (s.length / 4)
  | [] => by simp [bytesOf]
  | [_] => by simp [bytesOf]
  | [_, _] => by simp [bytesOf]
  | [_, _, _] => by simp [bytesOf]
  | a :: b :: c :: d :: r => by
    have ih := bytesOf_length r
    simp only [bytesOf, List.length_cons, ih]; omega

theorem encLoop_short (s : List Byte) : ∀ (dst : List Byte) (d : Nat), d ≤ dst.length →
    dst.length < d + (encode s).length + 1 → encLoop dst d s = .error .oobWrite := by
  -- one group: either some store of the group is already outside, or the group is complete
  have key : ∀ (dst : List Byte) (d n i : Nat),
      (d + 4 ≤ dst.length → ∃ dst', emit dst d n i = .ok dst' ∧ dst'.length = dst.length) ∧
      (dst.length < d + 4 → emit dst d n i = .error .oobWrite) := by
    intro dst d n i
    have hr1 := rd_tbl (i := n / 2^18 % 64) (Nat.mod_lt _ (by omega))
    have hr2 := rd_tbl (i := n / 2^12 % 64) (Nat.mod_lt _ (by omega))
    have hr3 := rd_tbl (i := n / 2^6 % 64) (Nat.mod_lt _ (by omega))
    have hr4 := rd_tbl (i := n % 64) (Nat.mod_lt _ (by omega))
    unfold emit
    simp only [Nat.shiftRight_eq_div_pow, and63, hr1, hr2, hr3, hr4, ok_bind, pure_eq_ok]
    refine ⟨fun h => ?_, fun h => ?_⟩
    · rw [wr_ok (by omega)]; simp only [ok_bind]
      rw [wr_ok (by simp; omega)]; simp only [ok_bind]
      split <;> (try simp only [ok_bind]) <;> rw [wr_ok (by simp; omega)] <;> simp only [ok_bind] <;> split <;>
        (refine ⟨_, wr_ok (by simp; omega), by simp⟩)
    · simp only [wr]
      split
      · simp only [ok_bind, List.length_set]
        split
        · simp only [ok_bind, List.length_set]
          split <;> ((try simp only [ok_bind, List.length_set]); split) <;>
            first
            | rfl
            | (simp only [ok_bind, List.length_set]
               repeat' split
               all_goals first | rfl | omega)
        · rfl
      · rfl
  have step : ∀ (dst : List Byte) (d n i : Nat) (k : List Byte → C (List Byte)) (m : Nat),
      dst.length < d + (m + 4) + 1 →
      (∀ dst' : List Byte, dst'.length = dst.length → d + 4 ≤ dst'.length → k dst' = .error .oobWrite) →
      (emit dst d n i >>= k) = .error .oobWrite := by
    intro dst d n i k m hm hk
    by_cases h4 : d + 4 ≤ dst.length
    · obtain ⟨dst', he, hl⟩ := (key dst d n i).1 h4
      rw [he, ok_bind]; exact hk dst' hl (by omega)
    · rw [(key dst d n i).2 (by omega), error_bind]
  induction s using encode.induct with
  | case1 => intro dst d hd h; simp [encLoop, wr, encode] at *; omega
  | case2 a =>
    intro dst d hd h
    simp only [encLoop]
    refine step _ _ _ _ _ 0 (by simpa [encode] using h) (fun dst' hl h4 => ?_)
    simp [encode] at h; simp [wr]; omega
  | case3 a b =>
    intro dst d hd h
    simp only [encLoop]
    refine step _ _ _ _ _ 0 (by simpa [encode] using h) (fun dst' hl h4 => ?_)
    simp [encode] at h; simp [wr]; omega
  | case4 a b c r ih =>
    intro dst d hd h
    simp only [encLoop]
    refine step _ _ _ _ _ (encode r).length (by simpa [encode] using h) (fun dst' hl h4 => ?_)
    refine ih dst' (d+4) h4 ?_
    simp only [encode, List.length_cons] at h; omega

end Ulz.Base64

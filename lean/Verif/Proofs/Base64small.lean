import Verif.Proofs.Base64text
import Verif.Model.Base64small
import Verif.Spec.Base64small
set_option linter.unusedSimpArgs false
set_option linter.unusedVariables false
namespace Ulz.Base64
open Spec

/-! ### The encoder -/

theorem encStrLoop_out (b junk : List Byte) : ∀ (s xs : List Byte) (d l : Nat), 0 ∉ s → d = xs.length →
    d + l = b.length →
    ∃ out r, encStrLoop (put b 0 xs) d l (s ++ 0 :: junk) = .ok (out, r) ∧
      out = if l = 0 then put b 0 xs else put b 0 (xs ++ encode (s.take (3 * ((l - 1) / 4))) ++ [0])
  | [], xs, d, l, h0, hd, hl => by
    simp only [List.nil_append]
    rw [encStrLoop.eq_def]; simp only []; rw [if_neg (by simp)]
    by_cases hl0 : l = 0
    · exact ⟨put b 0 xs, _, by rw [if_neg (by omega)]; rfl, by simp [hl0]⟩
    · rw [if_pos hl0, wr_put0 hd (by omega)]
      exact ⟨_, _, rfl, by simp [hl0, encode]⟩
  | a :: s, xs, d, l, h0, hd, hl => by
    have ha0 : a ≠ 0 := by intro h; subst h; simp at h0
    by_cases hl4 : l > 4
    case neg =>
      rw [List.cons_append, encStrLoop.eq_def]; simp only []; rw [if_neg (by omega)]
      by_cases hl0 : l = 0
      · exact ⟨put b 0 xs, _, by rw [if_neg (by omega)]; rfl, by simp [hl0]⟩
      · rw [if_pos hl0, wr_put0 hd (by omega)]
        refine ⟨_, _, rfl, ?_⟩
        rw [if_neg hl0, show (l - 1) / 4 = 0 by omega]
        simp [encode]
    case pos =>
    match s with
    | [] =>
      rw [List.cons_append, List.nil_append, encStrLoop.eq_def]; simp only []; rw [if_pos ⟨ha0, hl4⟩]
      simp only [ne_eq, not_true_eq_false, if_false]
      have ha := a.isLt
      rw [emit_put hd (by omega)]
      simp only [ok_bind]
      generalize hxs : (xs ++ _) = xs'
      obtain ⟨out, r, h1, h3⟩ := encStrLoop_out b junk [] xs' (d+4) (l-4) (by simp) (by rw [← hxs]; simp; omega) (by omega)
      simp only [List.nil_append] at h1
      refine ⟨out, r, h1, ?_⟩
      rw [h3, if_neg (by omega), if_neg (by omega), ← hxs, or1]
      rw [List.take_of_length_le (l := [a]) (by simp; omega)]
      simp only [ne_eq, not_true_eq_false, if_false, encode, List.take_nil]
      have e1 : a.toNat * 65536 / 2^18 % 64 = a.toNat / 4 := by omega
      have e2 : a.toNat * 65536 / 2^12 % 64 = a.toNat % 4 * 16 := by omega
      rw [e1, e2]; simp
    | [c] =>
      have hc0 : c ≠ 0 := by intro h; subst h; simp at h0
      rw [List.cons_append, List.cons_append, List.nil_append, encStrLoop.eq_def]; simp only []; rw [if_pos ⟨ha0, hl4⟩]
      simp only [ne_eq, hc0, not_false_eq_true, not_true_eq_false, if_true, if_false]
      have ha := a.isLt; have hc := c.isLt
      rw [emit_put hd (by omega)]
      simp only [ok_bind]
      generalize hxs : (xs ++ _) = xs'
      obtain ⟨out, r, h1, h3⟩ := encStrLoop_out b junk [] xs' (d+4) (l-4) (by simp) (by rw [← hxs]; simp; omega) (by omega)
      simp only [List.nil_append] at h1
      refine ⟨out, r, h1, ?_⟩
      rw [h3, if_neg (by omega), if_neg (by omega), ← hxs, or2]
      rw [List.take_of_length_le (l := [a, c]) (by simp; omega)]
      simp only [encode, List.take_nil]
      have e1 : (a.toNat * 65536 + c.toNat * 256) / 2^18 % 64 = a.toNat / 4 := by omega
      have e2 : (a.toNat * 65536 + c.toNat * 256) / 2^12 % 64 = a.toNat % 4 * 16 + c.toNat / 16 := by omega
      have e3 : (a.toNat * 65536 + c.toNat * 256) / 2^6 % 64 = c.toNat % 16 * 4 := by omega
      rw [e1, e2, e3]; simp
    | c :: e :: t =>
      have hc0 : c ≠ 0 := by intro h; subst h; simp at h0
      have he0 : e ≠ 0 := by intro h; subst h; simp at h0
      have hr0 : 0 ∉ t := by simp only [List.mem_cons, not_or] at h0; exact h0.2.2.2
      simp only [List.cons_append]
      rw [encStrLoop.eq_def]; simp only []; rw [if_pos ⟨ha0, hl4⟩]
      simp only [ne_eq, hc0, he0, not_false_eq_true, if_true]
      have ha := a.isLt; have hc := c.isLt; have he := e.isLt
      rw [emit_put hd (by omega)]
      simp only [ok_bind]
      generalize hxs : (xs ++ _) = xs'
      obtain ⟨out, r, h1, h3⟩ := encStrLoop_out b junk t xs' (d+4) (l-4) hr0 (by rw [← hxs]; simp; omega) (by omega)
      refine ⟨out, r, h1, ?_⟩
      rw [h3, if_neg (by omega), if_neg (by omega), ← hxs, or3]
      rw [show 3 * ((l - 1) / 4) = 3 * ((l - 4 - 1) / 4) + 1 + 1 + 1 by omega]
      simp only [encode, List.take_succ_cons]
      have e1 : (a.toNat * 65536 + c.toNat * 256 + e.toNat) / 2^18 % 64 = a.toNat / 4 := by omega
      have e2 : (a.toNat * 65536 + c.toNat * 256 + e.toNat) / 2^12 % 64 = a.toNat % 4 * 16 + c.toNat / 16 := by omega
      have e3 : (a.toNat * 65536 + c.toNat * 256 + e.toNat) / 2^6 % 64 = c.toNat % 16 * 4 + e.toNat / 64 := by omega
      have e4 : (a.toNat * 65536 + c.toNat * 256 + e.toNat) % 64 = e.toNat % 64 := by omega
      rw [e1, e2, e3, e4]; simp
  termination_by s => s.length

theorem encode_no0 : ∀ s : List Byte, (0 : Byte) ∉ encode s
  | [] => by simp [encode]
  | [a] => by
    have := a.isLt
    simp only [encode, List.mem_cons, not_or, List.not_mem_nil, not_false_eq_true, and_true]
    exact ⟨fun h => (sym_ne (by omega)).2 h.symm, fun h => (sym_ne (by omega)).2 h.symm, by decide, by decide⟩
  | [a, b] => by
    have := a.isLt
    have := b.isLt
    simp only [encode, List.mem_cons, not_or, List.not_mem_nil, not_false_eq_true, and_true]
    exact ⟨fun h => (sym_ne (by omega)).2 h.symm, fun h => (sym_ne (by omega)).2 h.symm,
      fun h => (sym_ne (by omega)).2 h.symm, by decide⟩
  | a :: b :: c :: s => by
    have := a.isLt
    have := b.isLt
    have := c.isLt
    simp only [encode, List.mem_cons, not_or]
    exact ⟨fun h => (sym_ne (by omega)).2 h.symm, fun h => (sym_ne (by omega)).2 h.symm,
      fun h => (sym_ne (by omega)).2 h.symm, fun h => (sym_ne (by omega)).2 h.symm, encode_no0 s⟩

theorem takeWhile_text {t r : List Byte} (h : (0 : Byte) ∉ t) : (t ++ 0 :: r).takeWhile (· ≠ 0) = t := by
  rw [List.takeWhile_append_of_pos (by intro x hx; simp; rintro rfl; exact h hx)]
  simp

/-- One call of the encoder, result and contents. -/
theorem enc_once {buf s junk : List Byte} (h0 : 0 ∉ s) (hl : 0 < buf.length) :
    base64enc_str buf (s ++ 0 :: junk) buf.length =
      .ok (put buf 0 (encode (s.take (3 * ((buf.length - 1) / 4))) ++ [0]),
        if (encode s).length < buf.length then 1 else 0) := by
  obtain ⟨o1, e1, _, _⟩ := encStrLoop_put buf junk s [] 0 buf.length h0 rfl (by simp)
  obtain ⟨o2, r, e2, f2⟩ := encStrLoop_out buf junk s [] 0 buf.length h0 rfl (by simp)
  rw [if_neg (by omega)] at f2
  have e := e1.symm.trans e2
  simp only [Except.ok.injEq, Prod.mk.injEq] at e
  unfold base64enc_str
  simp only [put_nil, List.nil_append] at e1 f2
  rw [e1, e.1, f2]

theorem small_len {l : Nat} (s : List Byte) (h : 0 < l) :
    (encode (s.take (3 * ((l - 1) / 4))) ++ [0]).length ≤ l := by
  rw [List.length_append, encode_length, List.length_take]
  simp only [List.length_singleton]
  omega

theorem encThrough_ok : ∀ (fuel : Nat) (buf s junk : List Byte), 0 ∉ s → 5 ≤ buf.length → s.length < fuel →
    encThrough fuel buf (s ++ 0 :: junk) = .ok (encode s)
  | 0, _, _, _, _, _, h => by omega
  | fuel + 1, buf, s, junk, h0, hl, hf => by
    unfold encThrough
    rw [enc_once h0 (by omega)]
    simp only [ok_bind]
    have hlen := put_length (b := buf) (i := 0) (Nat.le_trans (Nat.le_of_eq (Nat.zero_add _)) (small_len (l := buf.length) s (by omega)))
    rw [hlen]
    have ht : (put buf 0 (encode (s.take (3 * ((buf.length - 1) / 4))) ++ [0])).takeWhile (· ≠ 0) =
        encode (s.take (3 * ((buf.length - 1) / 4))) := by
      rw [put_zero, List.append_assoc, List.cons_append]
      exact takeWhile_text (encode_no0 _)
    rw [if_neg (by simp [put_zero]), ht]
    by_cases hfit : (encode s).length < buf.length
    · rw [if_pos hfit, if_pos rfl]
      rw [encode_length] at hfit
      rw [List.take_of_length_le (by omega)]
      rfl
    · rw [if_neg hfit, if_neg (by decide)]
      rw [encode_length] at hfit
      rw [Nat.mul_comm ((buf.length - 1) / 4) 3, List.drop_append_of_le_length (by omega)]
      rw [encThrough_ok fuel _ (s.drop _) junk (fun h => h0 (List.mem_of_mem_drop h)) (by rw [hlen]; exact hl)
        (by rw [List.length_drop]; omega)]
      simp only [ok_bind, pure_eq_ok]
      rw [← encode_append _ _ (by rw [List.length_take]; omega), List.take_append_drop]

theorem encThrough_hang : ∀ (fuel : Nat) (buf s junk : List Byte), 0 ∉ s → s ≠ [] → 0 < buf.length → buf.length < 5 →
    encThrough fuel buf (s ++ 0 :: junk) = .error .hang
  | 0, _, _, _, _, _, _, _ => rfl
  | fuel + 1, buf, s, junk, h0, hs, hl, hl5 => by
    unfold encThrough
    rw [enc_once h0 hl]
    simp only [ok_bind]
    have hlen := put_length (b := buf) (i := 0) (Nat.le_trans (Nat.le_of_eq (Nat.zero_add _)) (small_len s hl))
    rw [hlen, if_neg (by simp [put_zero])]
    have hs1 : 0 < s.length := List.length_pos_iff.2 hs
    have hfit : ¬(encode s).length < buf.length := by rw [encode_length]; omega
    rw [if_neg hfit, if_neg (by decide)]
    rw [show (buf.length - 1) / 4 * 3 = 0 by omega, List.drop_zero,
      encThrough_hang fuel _ s junk h0 hs (by rw [hlen]; exact hl) (by rw [hlen]; exact hl5)]
    rfl

/-! ### The decoder -/

/-- The numbers of the characters accepted after `k` padding characters. -/
def vals : (k : Nat) → List Byte → List Nat
  | _, [] => []
  | k, c :: s =>
    if c = 61 then (if k < 2 then 0 :: vals (k + 1) s else [])
    else if k = 0 then (match chrpos c with | some p => p :: vals 0 s | none => []) else []

def written (l : Nat) (w : List Nat) : List Byte := bytesOf (w.take (4 * min (w.length / 4) (l / 3)))

theorem written_short {l : Nat} {w : List Nat} (h : w.length < 4 ∨ l < 3) : written l w = [] := by
  unfold written
  rw [show min (w.length / 4) (l / 3) = 0 by omega]
  simp [bytesOf]

def num (u : List Nat) : Nat := u.foldl (fun n p => n * 64 + p) 0

theorem decLoop_out (b junk : List Byte) : ∀ (s : List Byte) (st : Dec) (xs : List Byte) (u : List Nat), 0 ∉ s →
    st.dst = put b 0 xs → st.d = xs.length → st.d + st.l = b.length → st.cnt + s.length < 2^31 → st.skip ≤ 2 →
    st.cnt % 4 = u.length → (∀ x ∈ u, x < 64) → st.n = num u → (4 ≤ st.cnt → st.o ≠ 0) →
    ∃ d n, decLoop st (s ++ 0 :: junk) = .ok (d, n) ∧
      (d = put b 0 (xs ++ written st.l (u ++ vals st.skip s)) ∨ n ≠ 0 ∨ (st.cnt = 0 ∧ s = [])) := by
  intro s
  induction s with
  | nil =>
    intro st xs u _ hb hd hl _ hskip hu hux hn ho
    simp only [List.nil_append, decLoop]
    rw [if_neg (by decide), if_pos trivial]
    by_cases hc : st.cnt % 4 ≠ 0 ∨ st.l = 0
    · refine ⟨st.dst, 0, by simp [hc], .inl ?_⟩
      rw [hb, written_short (by simp [vals]; omega)]
      simp
    · rw [if_neg hc]
      rw [not_or] at hc
      have hlen : st.dst.length = b.length := by rw [hb]; exact put_length (by omega)
      rw [wr_ok (by omega)]
      refine ⟨_, _, rfl, .inr ?_⟩
      by_cases h0 : st.cnt = 0
      · exact .inr ⟨h0, trivial⟩
      · exact .inl (ho (by omega))
  | cons c s ih =>
    intro st xs u h0 hb hd hl hcnt hskip hu hux hn ho
    simp only [List.mem_cons, not_or] at h0
    simp only [List.length_cons] at hcnt
    have hc0 : c ≠ 0 := fun h => h0.1 h.symm
    -- one accepted character
    have key : ∀ (st : Dec) (p : Nat), p < 64 → st.dst = put b 0 xs → st.d = xs.length → st.d + st.l = b.length →
        st.cnt + s.length + 1 < 2^31 → st.skip ≤ 2 → st.cnt % 4 = u.length → st.n = num u → (4 ≤ st.cnt → st.o ≠ 0) →
        ∃ d n, (do
            let (st', stop) ← decPush st p
            if stop then pure (st'.dst, 0) else decLoop st' (s ++ 0 :: junk)) = .ok (d, n) ∧
          (d = put b 0 (xs ++ written st.l (u ++ p :: vals st.skip s)) ∨ n ≠ 0) := by
      intro st p hp hb hd hl hcnt hskip hu hn ho
      by_cases h4 : (st.cnt + 1) % 4 = 0
      · have hu3 : u.length = 3 := by omega
        by_cases hl3 : st.l < 3
        · unfold decPush
          rw [if_neg (by omega)]
          simp only [h4, if_true, hl3, pure_eq_ok, ok_bind]
          refine ⟨_, _, rfl, .inl ?_⟩
          rw [hb, written_short (.inr hl3)]
          simp
        · rw [decPush_last (b := b) (xs := xs) hp h4 (by omega) hd hb (by omega) (by omega)]
          simp only [ok_bind, Bool.false_eq_true, if_false]
          match u, hu3, hux, hn with
          | [x, y, z], _, hux, hn =>
            have hx : x < 64 := hux x (by simp)
            have hy : y < 64 := hux y (by simp)
            have hz : z < 64 := hux z (by simp)
            have hn' : st.n = (x * 64 + y) * 64 + z := by rw [hn]; simp [num]
            obtain ⟨d, n, r1, r2⟩ := ih (st := ⟨put b 0 (xs ++ [BitVec.ofNat 8 ((st.n * 64 + p) / 65536),
                BitVec.ofNat 8 ((st.n * 64 + p) / 256 % 256), BitVec.ofNat 8 ((st.n * 64 + p) % 256)]),
                st.d + 3, st.l - 3, st.o + (3 - st.skip), 0, st.cnt + 1, st.skip⟩) (xs ++ [BitVec.ofNat 8 ((st.n * 64 + p) / 65536),
                BitVec.ofNat 8 ((st.n * 64 + p) / 256 % 256), BitVec.ofNat 8 ((st.n * 64 + p) % 256)]) [] h0.2
              rfl (by simp; omega) (by simp only []; omega) (by simp only []; omega) (by exact hskip)
              (by simp only [List.length_nil]; omega) (by simp) rfl (by simp only []; omega)
            refine ⟨d, n, r1, ?_⟩
            rcases r2 with r2 | r2 | ⟨r2, _⟩
            · left
              rw [r2]
              congr 1
              rw [List.append_assoc]
              congr 1
              simp only [List.nil_append, List.cons_append]
              unfold written
              simp only [List.length_cons]
              rw [show 4 * min (((vals st.skip s).length + 1 + 1 + 1 + 1) / 4) (st.l / 3) =
                4 * min ((vals st.skip s).length / 4) ((st.l - 3) / 3) + 1 + 1 + 1 + 1 by omega]
              simp only [List.take_succ_cons, bytesOf]
              rw [hn']
              congr 1
              · congr 1; omega
              · congr 1
                · rw [ofNat8_mod]; apply BitVec.eq_of_toNat_eq; simp only [BitVec.toNat_ofNat]; omega
                · congr 1; rw [ofNat8_mod]; apply BitVec.eq_of_toNat_eq; simp only [BitVec.toNat_ofNat]; omega
            · exact .inr r2
            · simp only [] at r2; omega
      · rw [decPush_mid hp h4 (by omega)]
        simp only [ok_bind, Bool.false_eq_true, if_false]
        obtain ⟨d, n, r1, r2⟩ := ih { st with n := st.n * 64 + p, cnt := st.cnt + 1 } xs (u ++ [p]) h0.2 hb hd hl
          (by simp only []; omega) hskip (by simp; omega)
          (by intro x hx; rcases List.mem_append.1 hx with hx | hx
              · exact hux x hx
              · simp at hx; omega)
          (by rw [hn]; simp [num]) (by intro h; exact ho (by simp only [] at h; omega))
        refine ⟨d, n, r1, ?_⟩
        rcases r2 with r2 | r2 | ⟨r2, _⟩
        · left
          rw [r2]
          simp
        · exact .inr r2
        · simp only [] at r2; omega
    have stopd : written st.l (u ++ []) = [] := written_short (by simp; omega)
    simp only [List.cons_append, decLoop]
    by_cases hceq : c = ch '='
    · rw [if_pos hceq]
      have hc61 : c = 61 := by rw [hceq]; decide
      by_cases hs : st.skip + 1 > 2
      · refine ⟨st.dst, 0, by simp [hs], .inl ?_⟩
        unfold vals
        rw [if_pos hc61, if_neg (by omega), stopd, hb]
        simp
      · rw [if_neg hs]
        obtain ⟨d, n, r1, r2⟩ := key { st with skip := st.skip + 1 } 0 (by omega) hb hd hl (by simp only []; omega)
          (by simp only []; omega) hu hn ho
        refine ⟨d, n, r1, ?_⟩
        unfold vals
        rw [if_pos hc61, if_pos (by omega)]
        rcases r2 with r2 | r2
        · exact .inl r2
        · exact .inr (.inl r2)
    · rw [if_neg hceq, if_neg hc0]
      have hc61 : c ≠ 61 := by rw [ch_eq] at hceq; exact hceq
      by_cases hs : st.skip ≠ 0
      · rw [if_pos hs]
        refine ⟨st.dst, 0, rfl, .inl ?_⟩
        unfold vals
        rw [if_neg hc61, if_neg hs, stopd, hb]
        simp
      · rw [if_neg hs]
        have hs0 : st.skip = 0 := by omega
        cases hp : chrpos c with
        | none =>
          refine ⟨st.dst, 0, rfl, .inl ?_⟩
          unfold vals
          rw [if_neg hc61, if_pos hs0, hp]
          simp only []
          rw [stopd, hb]
          simp
        | some p =>
          simp only []
          obtain ⟨d, n, r1, r2⟩ := key st p (chrpos_some hp).1 hb hd hl (by omega) hskip hu hn ho
          refine ⟨d, n, r1, ?_⟩
          unfold vals
          rw [if_neg hc61, if_pos hs0, hp]
          simp only []
          rw [hs0] at r2
          rcases r2 with r2 | r2
          · exact .inl r2
          · exact .inr (.inl r2)

theorem vals_start {s : List Byte} {v : List Nat} {j : Nat} {r : List Byte} (h : Start s v j r) :
    vals 0 s = v ++ List.replicate j 0 := by
  obtain ⟨rfl, hv, hj, hstop⟩ := h
  have base : ∀ k i, k + i = j → vals k (List.replicate i 61 ++ r) = List.replicate i 0 := by
    intro k i
    induction i generalizing k with
    | zero =>
      intro hk
      simp only [List.replicate_zero, List.nil_append]
      cases r with
      | nil => rfl
      | cons c r =>
        obtain ⟨s1, s2⟩ := hstop c rfl
        unfold vals
        by_cases hc : c = 61
        · rw [if_pos hc, if_neg (fun h => s1 (by omega) hc)]
        · rw [if_neg hc]
          by_cases hk0 : k = 0
          · rw [if_pos hk0]
            cases hp : chrpos c with
            | none => rfl
            | some p => exact absurd (chrpos_some hp).2 (s2 (by omega) p (chrpos_some hp).1)
          · rw [if_neg hk0]
    | succ i ih =>
      intro hk
      simp only [List.replicate_succ, List.cons_append]
      unfold vals
      rw [if_pos rfl, if_pos (by omega), ih (k + 1) (by omega)]
  clear hstop
  induction v with
  | nil => simpa using base 0 j (by omega)
  | cons x v ih =>
    have hx : x < 64 := hv x (by simp)
    simp only [List.map_cons, List.cons_append]
    unfold vals
    rw [if_neg (sym_ne hx).1, if_pos rfl, chrpos_sym hx]
    simp only []
    rw [ih (fun y hy => hv y (by simp [hy]))]

theorem start_exists (s : List Byte) : ∃ v j r, Start s v j r := by
  have pads : ∀ (n : Nat) (s : List Byte), ∃ j r, j ≤ n ∧ s = List.replicate j 61 ++ r ∧ (∀ c, r.head? = some c → j < n → c ≠ 61) := by
    intro n
    induction n with
    | zero => intro s; exact ⟨0, s, by omega, by simp, fun _ _ h => by omega⟩
    | succ n ih =>
      intro s
      match s with
      | [] => exact ⟨0, [], by omega, rfl, by simp⟩
      | c :: s =>
        by_cases hc : c = 61
        · obtain ⟨j, r, h1, h2, h3⟩ := ih s
          exact ⟨j + 1, r, by omega, by rw [hc, List.replicate_succ, List.cons_append, ← h2], fun d hd hj => h3 d hd (by omega)⟩
        · exact ⟨0, c :: s, by omega, by simp, fun d hd _ => by simp at hd; subst hd; exact hc⟩
  induction s with
  | nil => exact ⟨[], 0, [], rfl, by simp, by omega, by simp⟩
  | cons c s ih =>
    cases hp : chrpos c with
    | some p =>
      obtain ⟨hp1, rfl⟩ := chrpos_some hp
      obtain ⟨v, j, r, h1, h2, h3, h4⟩ := ih
      refine ⟨p :: v, j, r, by rw [h1]; simp, ?_, h3, h4⟩
      intro x hx
      rcases List.mem_cons.1 hx with rfl | hx
      · exact hp1
      · exact h2 x hx
    | none =>
      obtain ⟨j, r, h1, h2, h3⟩ := pads 2 (c :: s)
      refine ⟨[], j, r, by simpa using h2, by simp, h1, ?_⟩
      intro d hd
      refine ⟨h3 d hd, ?_⟩
      intro hj x hx hdx
      subst hj
      simp only [List.replicate_zero, List.nil_append] at h2
      rw [← h2] at hd
      simp only [List.head?_cons, Option.some.injEq] at hd
      rw [hd, hdx, chrpos_sym hx] at hp
      cases hp

end Ulz.Base64

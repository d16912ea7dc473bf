import Verif.Model.Overlap
import Verif.Proofs.Rc4
set_option linter.unusedSimpArgs false
set_option linter.unusedVariables false
namespace Ulz.Overlap

theorem map_ok {α β : Type} (f : α → β) (a : α) : Except.map f (.ok a : C α) = .ok (f a) := rfl
theorem map_error {α β : Type} (f : α → β) (e : UB) : Except.map f (.error e : C α) = .error e := rfl

/-- `b` is `a` except for the `k` bytes at `d`. -/
structure Off (a b : List Byte) (d k : Nat) : Prop where
  len : b.length = a.length
  get : ∀ j, j < d ∨ d + k ≤ j → b[j]? = a[j]?

theorem Off.trans {a b c : List Byte} {d k l : Nat} (h1 : Off a b d k) (h2 : Off b c (d + k) l) : Off a c d (k + l) :=
  ⟨h2.len.trans h1.len, fun j hj => (h2.get j (by omega)).trans (h1.get j (by omega))⟩

theorem wr_off {D D' : List Byte} {d : Nat} {v : Byte} (h : wr D d v = .ok D') : Off D D' d 1 := by
  unfold wr at h
  split at h
  · cases h
    exact ⟨by simp, fun j hj => List.getElem?_set_ne (by omega)⟩
  · cases h

theorem Off.read {P D D' : List Byte} {d k : Nat} (h : Off D D' d k) {j : Nat} (hj : j < P.length + d ∨ P.length + d + k ≤ j) :
    (P ++ D')[j]? = (P ++ D)[j]? := by
  by_cases hp : j < P.length
  · rw [List.getElem?_append_left hp, List.getElem?_append_left hp]
  · rw [List.getElem?_append_right (by omega), List.getElem?_append_right (by omega)]
    exact h.get _ (by omega)

theorem wr_shift (P D : List Byte) (i : Nat) (v : Byte) : wr (P ++ D) (P.length + i) v = (wr D i v).map (P ++ ·) := by
  unfold wr
  by_cases h : i < D.length
  · rw [if_pos (by simp; exact h), if_pos h, map_ok, List.set_append_right _ _ (by omega)]
    simp
  · rw [if_neg (by simp; omega), if_neg h, map_error]

theorem wr_shift' (P D : List Byte) (j i : Nat) (hj : j = P.length + i) (v : Byte) : wr (P ++ D) j v = (wr D i v).map (P ++ ·) := by
  rw [hj, wr_shift]

theorem rd_of {m : List Byte} {i : Nat} {c : Byte} (h : m[i]? = some c) : rd m i = .ok c := by
  unfold rd; rw [h]

theorem rd_none {m : List Byte} {i : Nat} (h : m[i]? = none) : rd m i = .error .oobRead := by
  unfold rd; rw [h]

/-! ### base64enc -/

/-- The four stores with the values to store given. -/
def emit4 (D : List Byte) (d : Nat) (v1 v2 v3 v4 : C Byte) : C (List Byte) := do
  let x ← v1
  let D ← wr D d x
  let x ← v2
  let D ← wr D (d + 1) x
  let x ← v3
  let D ← wr D (d + 2) x
  let x ← v4
  wr D (d + 3) x

theorem emit_eq (D : List Byte) (d n i : Nat) : Base64.emit D d n i =
    emit4 D d (rd Base64.tbl ((n >>> 18) &&& 0x3f)) (rd Base64.tbl ((n >>> 12) &&& 0x3f))
      (if i ≠ 0 then rd Base64.tbl ((n >>> 6) &&& 0x3f) else pure (ch '=')) (if i = 2 then rd Base64.tbl (n &&& 0x3f) else pure (ch '=')) := by
  unfold Base64.emit emit4
  by_cases h1 : i = 0
  · subst h1; rfl
  · by_cases h2 : i = 2
    · subst h2; rfl
    · simp only [h1, h2, ne_eq, not_false_eq_true, if_true, if_false]

theorem emit_shift (P D : List Byte) (d n i : Nat) :
    Base64.emit (P ++ D) (P.length + d) n i = (Base64.emit D d n i).map (P ++ ·) := by
  rw [emit_eq, emit_eq]
  generalize rd Base64.tbl ((n >>> 18) &&& 0x3f) = v1
  generalize rd Base64.tbl ((n >>> 12) &&& 0x3f) = v2
  generalize (if i ≠ 0 then rd Base64.tbl ((n >>> 6) &&& 0x3f) else pure (ch '=')) = v3
  generalize (if i = 2 then rd Base64.tbl (n &&& 0x3f) else pure (ch '=')) = v4
  unfold emit4
  cases v1 with
  | error u => rfl
  | ok v1 =>
    rw [ok_bind, ok_bind, wr_shift]
    cases wr D d v1 with
    | error u => rfl
    | ok D1 =>
      rw [map_ok, ok_bind, ok_bind]
      cases v2 with
      | error u => rfl
      | ok v2 =>
        rw [ok_bind, ok_bind, wr_shift' P D1 _ (d + 1) (by omega)]
        cases wr D1 (d + 1) v2 with
        | error u => rfl
        | ok D2 =>
          rw [map_ok, ok_bind, ok_bind]
          cases v3 with
          | error u => rfl
          | ok v3 =>
            rw [ok_bind, ok_bind, wr_shift' P D2 _ (d + 2) (by omega)]
            cases wr D2 (d + 2) v3 with
            | error u => rfl
            | ok D3 =>
              rw [map_ok, ok_bind, ok_bind]
              cases v4 with
              | error u => rfl
              | ok v4 => rw [ok_bind, ok_bind, wr_shift' P D3 _ (d + 3) (by omega)]

theorem emit_off {D D' : List Byte} {d n i : Nat} (h : Base64.emit D d n i = .ok D') : Off D D' d 4 := by
  rw [emit_eq] at h
  generalize rd Base64.tbl ((n >>> 18) &&& 0x3f) = v1 at h
  generalize rd Base64.tbl ((n >>> 12) &&& 0x3f) = v2 at h
  generalize (if i ≠ 0 then rd Base64.tbl ((n >>> 6) &&& 0x3f) else pure (ch '=')) = v3 at h
  generalize (if i = 2 then rd Base64.tbl (n &&& 0x3f) else pure (ch '=')) = v4 at h
  unfold emit4 at h
  cases v1 with
  | error u => cases h
  | ok v1 =>
    rw [ok_bind] at h
    cases h2 : wr D d v1 with
    | error u => rw [h2] at h; cases h
    | ok D1 =>
      rw [h2, ok_bind] at h
      cases v2 with
      | error u => cases h
      | ok v2 =>
        rw [ok_bind] at h
        cases h4 : wr D1 (d + 1) v2 with
        | error u => rw [h4] at h; cases h
        | ok D2 =>
          rw [h4, ok_bind] at h
          cases v3 with
          | error u => cases h
          | ok v3 =>
            rw [ok_bind] at h
            cases h6 : wr D2 (d + 2) v3 with
            | error u => rw [h6] at h; cases h
            | ok D3 =>
              rw [h6, ok_bind] at h
              cases v4 with
              | error u => cases h
              | ok v4 =>
                rw [ok_bind] at h
                exact (((wr_off h2).trans (wr_off h4)).trans (wr_off h6)).trans (wr_off h)

theorem encLoop_same (P : List Byte) : ∀ (src D : List Byte) (d s : Nat),
    (∀ i, i < src.length → (P ++ D)[s + i]? = src[i]?) →
    (src.length = 0 ∨ P.length + d + (src.length - 1) / 3 ≤ s ∨ s + src.length ≤ P.length) →
    encLoop (P ++ D) (P.length + d) s src.length = (Base64.encLoop D d src).map (P ++ ·)
  | [], D, d, s, _, _ => by
    simp only [List.length_nil, encLoop, Base64.encLoop]; exact wr_shift P D d 0
  | [a], D, d, s, hr, _ => by
    have h0 := rd_of (hr 0 (by simp))
    simp only [Nat.add_zero] at h0
    simp only [List.length_cons, List.length_nil, Nat.zero_add, encLoop, Base64.encLoop]
    rw [h0, ok_bind, emit_shift]
    cases Base64.emit D d (a.toNat <<< 16) 0 with
    | error u => rfl
    | ok D1 => rw [map_ok, ok_bind, ok_bind]; exact wr_shift' P D1 _ (d + 4) (by omega) 0
  | [a, b], D, d, s, hr, _ => by
    have h0 := rd_of (hr 0 (by simp))
    have h1 := rd_of (hr 1 (by simp))
    simp only [Nat.add_zero] at h0
    simp only [List.length_cons, List.length_nil, Nat.zero_add, encLoop, Base64.encLoop]
    rw [h0, ok_bind, h1, ok_bind, emit_shift]
    cases Base64.emit D d (a.toNat <<< 16 ||| b.toNat <<< 8) 1 with
    | error u => rfl
    | ok D1 => rw [map_ok, ok_bind, ok_bind]; exact wr_shift' P D1 _ (d + 4) (by omega) 0
  | a :: b :: c :: src, D, d, s, hr, hc => by
    have h0 := rd_of (hr 0 (by simp))
    have h1 := rd_of (hr 1 (by simp))
    have h2 := rd_of (hr 2 (by simp))
    simp only [Nat.add_zero] at h0
    simp only [List.length_cons, encLoop, Base64.encLoop]
    rw [h0, ok_bind, h1, ok_bind, h2, ok_bind, emit_shift]
    cases he : Base64.emit D d (a.toNat <<< 16 ||| b.toNat <<< 8 ||| c.toNat) 2 with
    | error u => rfl
    | ok D1 =>
      rw [map_ok, ok_bind, ok_bind]
      have off := emit_off he
      simp only [List.length_cons] at hc
      have := encLoop_same P src D1 (d + 4) (s + 3) (by
        intro i hi
        rw [off.read (by omega)]
        have := hr (i + 3) (by simp only [List.length_cons]; omega)
        rw [show s + (i + 3) = s + 3 + i by omega] at this
        rw [this]; rfl) (by omega)
      rw [← this]
      congr 1

/-! ### base64dec -/

/-- The state with the destination inside the object. -/
def shiftSt (P : List Byte) (st : Base64.Dec) : Base64.Dec := { st with dst := P ++ st.dst, d := P.length + st.d }

theorem decPush_shift (P : List Byte) (st : Base64.Dec) (p : Nat) :
    Base64.decPush (shiftSt P st) p = (Base64.decPush st p).map (fun r => (shiftSt P r.1, r.2)) := by
  unfold Base64.decPush shiftSt
  simp only
  by_cases h1 : st.cnt = 2 ^ 31 - 1
  · simp only [h1, if_true]; rfl
  · simp only [h1, if_false, pure_eq_ok, ok_bind]
    by_cases h2 : (st.cnt + 1) % 4 = 0
    · simp only [h2, if_true]
      by_cases h3 : st.l < 3
      · simp only [h3, if_true]; rfl
      · simp only [h3, if_false]
        rw [wr_shift]
        cases wr st.dst st.d (BitVec.ofNat 8 ((st.n <<< 6 ||| p) >>> 16)) with
        | error u => rfl
        | ok D1 =>
          rw [map_ok, ok_bind, ok_bind, wr_shift' P D1 _ (st.d + 1) (by omega)]
          cases wr D1 (st.d + 1) (BitVec.ofNat 8 (((st.n <<< 6 ||| p) >>> 8) &&& 0xff)) with
          | error u => rfl
          | ok D2 =>
            rw [map_ok, ok_bind, ok_bind, wr_shift' P D2 _ (st.d + 2) (by omega)]
            cases wr D2 (st.d + 2) (BitVec.ofNat 8 ((st.n <<< 6 ||| p) &&& 0xff)) with
            | error u => rfl
            | ok D3 => rw [map_ok, ok_bind, ok_bind, map_ok]; rfl
    · simp only [h2, if_false]; rfl

/-- What a push that does not stop does. -/
theorem decPush_off {st st' : Base64.Dec} {p : Nat} (h : Base64.decPush st p = .ok (st', false)) (hd : st.d = 3 * (st.cnt / 4)) :
    st'.cnt = st.cnt + 1 ∧ st'.d = 3 * (st'.cnt / 4) ∧
      ((st.cnt % 4 ≠ 3 ∧ st'.dst = st.dst) ∨ (st.cnt % 4 = 3 ∧ Off st.dst st'.dst st.d 3)) := by
  unfold Base64.decPush at h
  by_cases h1 : st.cnt = 2 ^ 31 - 1
  · simp only [h1, if_true] at h; cases h
  · simp only [h1, if_false, pure_eq_ok, ok_bind] at h
    by_cases h2 : (st.cnt + 1) % 4 = 0
    · simp only [h2, if_true] at h
      by_cases h3 : st.l < 3
      · simp only [h3, if_true] at h; cases h
      · simp only [h3, if_false] at h
        cases e1 : wr st.dst st.d (BitVec.ofNat 8 ((st.n <<< 6 ||| p) >>> 16)) with
        | error u => rw [e1] at h; cases h
        | ok D1 =>
          rw [e1, ok_bind] at h
          cases e2 : wr D1 (st.d + 1) (BitVec.ofNat 8 (((st.n <<< 6 ||| p) >>> 8) &&& 0xff)) with
          | error u => rw [e2] at h; cases h
          | ok D2 =>
            rw [e2, ok_bind] at h
            cases e3 : wr D2 (st.d + 2) (BitVec.ofNat 8 ((st.n <<< 6 ||| p) &&& 0xff)) with
            | error u => rw [e3] at h; cases h
            | ok D3 =>
              rw [e3, ok_bind] at h
              cases h
              refine ⟨rfl, ?_, .inr ⟨by omega, ((wr_off e1).trans (wr_off e2)).trans (wr_off e3)⟩⟩
              simp only; omega
    · simp only [h2, if_false] at h
      cases h
      exact ⟨rfl, by simp only; omega, .inl ⟨by omega, rfl⟩⟩

theorem decLoop_same (P : List Byte) (sp : Nat) : ∀ (src : List Byte) (f s n : Nat) (st : Base64.Dec), src.length < f →
    (∀ i, i < n → (P ++ st.dst)[s + i]? = src[i]?) →
    (src.length < n ∨ 0 ∈ src.take n) →
    st.d = 3 * (st.cnt / 4) → s = sp + st.cnt →
    (P.length ≤ sp + 1 ∨ s + n ≤ P.length) →
    decLoop f s (shiftSt P st) = (Base64.decLoop st src).map (fun r => (P ++ r.1, r.2))
  | src, 0, s, n, st, hf, _, _, _, _, _ => by omega
  | [], f + 1, s, n, st, hf, hr, hn, hd, hs, hc => by
    have hn0 : 0 < n := by
      rcases hn with h | h
      · exact Nat.lt_of_le_of_lt (Nat.zero_le _) h
      · simp at h
    have := rd_none (hr 0 hn0)
    simp only [Nat.add_zero] at this
    rw [decLoop, show (shiftSt P st).dst = P ++ st.dst from rfl, this]
    rfl
  | c :: src, f + 1, s, n, st, hf, hr, hn, hd, hs, hc => by
    have hn0 : 0 < n := by
      rcases hn with h | h
      · exact Nat.lt_of_le_of_lt (Nat.zero_le _) h
      · cases n with
        | zero => simp at h
        | succ n => omega
    obtain ⟨n, rfl⟩ : ∃ k, n = k + 1 := ⟨n - 1, by omega⟩
    have h0 := rd_of (hr 0 hn0)
    simp only [Nat.add_zero] at h0
    have hrest : c ≠ 0 → (src.length < n ∨ 0 ∈ src.take n) := by
      intro hc0
      rcases hn with h | h
      · left; simp only [List.length_cons] at h; omega
      · right
        rw [List.take_succ_cons, List.mem_cons] at h
        rcases h with h | h
        · exact absurd h.symm hc0
        · exact h
    have go : ∀ (st2 : Base64.Dec) (p : Nat), st2.dst = st.dst → st2.d = st.d → st2.cnt = st.cnt → c ≠ 0 →
        (do let (st', stop) ← Base64.decPush (shiftSt P st2) p
            if stop then pure (st'.dst, 0) else decLoop f (s + 1) st') =
        (do let (st', stop) ← Base64.decPush st2 p
            if stop then pure (st'.dst, 0) else Base64.decLoop st' src : C (List Byte × Nat)).map (fun r => (P ++ r.1, r.2)) := by
      intro st2 p e1 e2 e3 hc0
      rw [decPush_shift]
      cases hp : Base64.decPush st2 p with
      | error u => rfl
      | ok r =>
        obtain ⟨st', stop⟩ := r
        rw [map_ok, ok_bind, ok_bind]
        cases stop with
        | true => rfl
        | false =>
          simp only [Bool.false_eq_true, if_false]
          obtain ⟨k1, k2, k3⟩ := decPush_off hp (by rw [e2, e3]; exact hd)
          rw [e3] at k1 k3; rw [e1, e2] at k3
          refine decLoop_same P sp src f (s + 1) n st' (by simp only [List.length_cons] at hf; omega) ?_ (hrest hc0) k2 (by rw [k1, hs]; omega) (by omega)
          intro i hi
          have := hr (i + 1) (by omega)
          rw [show s + (i + 1) = s + 1 + i by omega, List.getElem?_cons_succ] at this
          rw [← this]
          rcases k3 with ⟨_, k3⟩ | ⟨k4, k3⟩
          · rw [k3]
          · refine k3.read ?_
            rw [hd]
            omega
    rw [decLoop, show (shiftSt P st).dst = P ++ st.dst from rfl, h0, ok_bind, Base64.decLoop]
    by_cases he : c = ch '='
    · rw [if_pos he, if_pos he]
      simp only [show (shiftSt P st).skip = st.skip from rfl]
      by_cases hsk : st.skip + 1 > 2
      · rw [if_pos hsk, if_pos hsk]; rfl
      · rw [if_neg hsk, if_neg hsk]
        exact go { st with skip := st.skip + 1 } 0 rfl rfl rfl (by rw [he]; decide)
    · rw [if_neg he, if_neg he]
      by_cases hz : c = 0
      · rw [if_pos hz, if_pos hz]
        simp only [show (shiftSt P st).cnt = st.cnt from rfl, show (shiftSt P st).l = st.l from rfl,
          show (shiftSt P st).d = P.length + st.d from rfl, show (shiftSt P st).o = st.o from rfl]
        by_cases hq : st.cnt % 4 ≠ 0 ∨ st.l = 0
        · rw [if_pos hq, if_pos hq]; rfl
        · rw [if_neg hq, if_neg hq, wr_shift]
          cases wr st.dst st.d 0 with
          | error u => rfl
          | ok D1 => rfl
      · rw [if_neg hz, if_neg hz]
        simp only [show (shiftSt P st).skip = st.skip from rfl]
        by_cases hsk : st.skip ≠ 0
        · rw [if_pos hsk, if_pos hsk]; rfl
        · rw [if_neg hsk, if_neg hsk]
          cases Base64.chrpos c with
          | none => rfl
          | some p => exact go st p rfl rfl rfl hz

/-! ### hex -/

theorem raw2hexLoop_same (P : List Byte) : ∀ (src D : List Byte) (o s : Nat),
    (∀ i, i < src.length → (P ++ D)[s + i]? = src[i]?) →
    (P.length + o + src.length ≤ s ∨ s + src.length ≤ P.length) →
    raw2hexLoop (P ++ D) (P.length + o) s src.length = (Hex.raw2hexLoop D o src).map (P ++ ·)
  | [], D, o, s, _, _ => by simp only [List.length_nil, raw2hexLoop, Hex.raw2hexLoop]; exact wr_shift P D o 0
  | x :: src, D, o, s, hr, hc => by
    have h0 := hr 0 (by simp)
    simp only [Nat.add_zero, List.getElem?_cons_zero] at h0
    simp only [List.length_cons] at hc
    rw [List.length_cons, raw2hexLoop, Hex.raw2hexLoop, rd_of h0, ok_bind]
    cases rd Hex.hextab (0xf &&& (x.toNat >>> 4)) with
    | error u => rfl
    | ok v1 =>
      rw [ok_bind, ok_bind, wr_shift' P D _ (o + 0) (by omega)]
      cases e1 : wr D (o + 0) v1 with
      | error u => rfl
      | ok D1 =>
        have o1 := wr_off e1
        rw [map_ok, ok_bind, ok_bind]
        have h1 : (P ++ D1)[s]? = some x := by rw [o1.read (by omega)]; exact h0
        rw [rd_of h1, ok_bind]
        cases rd Hex.hextab (0xf &&& x.toNat) with
        | error u => rfl
        | ok v2 =>
          rw [ok_bind, ok_bind, wr_shift' P D1 _ (o + 1) (by omega)]
          cases e2 : wr D1 (o + 1) v2 with
          | error u => rfl
          | ok D2 =>
            have o2 := wr_off e2
            rw [map_ok, ok_bind, ok_bind]
            have := raw2hexLoop_same P src D2 (o + 2) (s + 1) (by
              intro i hi
              rw [o2.read (by omega), o1.read (by omega)]
              have := hr (i + 1) (by simp; omega)
              rw [show s + (i + 1) = s + 1 + i by omega] at this
              exact this) (by omega)
            rw [← this]
            congr 1

theorem hex2rawLoop_same (P : List Byte) : ∀ (f : Nat) (src D : List Byte) (o s n : Nat), src.length < f →
    (∀ i, i < n → (P ++ D)[s + i]? = src[i]?) →
    (src.length < n ∨ ∃ e, 2 * e < n ∧ src[2 * e]? = some 0) →
    (P.length + o ≤ s + 1 ∨ s + n ≤ P.length) →
    hex2rawLoop f (P ++ D) (P.length + o) s = (Hex.hex2rawLoop D o src).map (P ++ ·)
  | 0, src, D, o, s, n, hf, _, _, _ => by omega
  | f + 1, [], D, o, s, n, hf, hr, hn, hc => by
    have hn0 : 0 < n := by
      rcases hn with h | ⟨e, h, h'⟩
      · exact Nat.lt_of_le_of_lt (Nat.zero_le _) h
      · simp at h'
    have := rd_none (hr 0 hn0)
    simp only [Nat.add_zero] at this
    rw [hex2rawLoop, this]
    simp only [error_bind, Hex.hex2rawLoop]; rfl
  | f + 1, h :: src, D, o, s, n, hf, hr, hn, hc => by
    have hn0 : 0 < n := by
      rcases hn with h | ⟨e, h, h'⟩ <;> omega
    have h0 := hr 0 hn0
    simp only [Nat.add_zero, List.getElem?_cons_zero] at h0
    rw [hex2rawLoop, Hex.hex2rawLoop.eq_def, rd_of h0, ok_bind]
    simp only
    by_cases hz : h = 0
    · rw [if_pos hz, if_pos hz]; rfl
    · rw [if_neg hz, if_neg hz]
      have hn1 : 1 < n := by
        rcases hn with h1 | ⟨e, h1, h2⟩
        · simp only [List.length_cons] at h1; omega
        · cases e with
          | zero => simp at h2; exact absurd h2 hz
          | succ e => omega
      have hn' : src.length < n - 1 ∨ ∃ e, 2 * e < n - 2 ∧ (h :: src)[2 * (e + 1)]? = some 0 := by
        rcases hn with h1 | ⟨e, h1, h2⟩
        · left; simp only [List.length_cons] at h1; omega
        · cases e with
          | zero => simp at h2; exact absurd h2 hz
          | succ e => exact .inr ⟨e, by omega, h2⟩
      cases Hex.hval h with
      | none => rfl
      | some c =>
        simp only
        have h1 := hr 1 hn1
        cases src with
        | nil => rw [rd_none (by simpa using h1)]; rfl
        | cons h' src' =>
          rw [rd_of (c := h') (by simpa using h1), ok_bind]
          simp only
          have key : ∀ v, (do let mem ← wr (P ++ D) (P.length + o) v; hex2rawLoop f mem (P.length + o + 1) (s + 2)) =
              (do let out ← wr D o v; Hex.hex2rawLoop out (o + 1) src' : C (List Byte)).map (P ++ ·) := by
            intro v
            rw [wr_shift]
            cases e1 : wr D o v with
            | error u => rfl
            | ok D1 =>
              have o1 := wr_off e1
              rw [map_ok, ok_bind, ok_bind]
              have := hex2rawLoop_same P f src' D1 (o + 1) (s + 2) (n - 2) (by simp only [List.length_cons] at hf; omega) (by
                intro i hi
                rw [o1.read (by clear hn hn'; omega)]
                have := hr (i + 2) (by omega)
                rw [show s + (i + 2) = s + 2 + i by omega] at this
                exact this) (by
                rcases hn' with k | ⟨e, k1, k2⟩
                · left; simp only [List.length_cons] at k; omega
                · right; exact ⟨e, k1, by rw [show 2 * (e + 1) = 2 * e + 1 + 1 by omega] at k2; simpa using k2⟩) (by clear hn hn'; omega)
              rw [← this]
              congr 1
          exact key _

/-! ### rc4 -/

theorem crypt_same (P src : List Byte) (sp : Nat) : ∀ (n x y z : Nat) (box D : List Byte),
    (∀ i, x ≤ i → i < x + n → (P ++ D)[sp + i]? = src[i]?) →
    (P.length ≤ sp ∨ sp + x + n ≤ P.length) →
    crypt P.length sp n x y z box (P ++ D) = (Rc4.crypt src n x y z box D).map (P ++ ·)
  | 0, x, y, z, box, D, _, _ => rfl
  | n + 1, x, y, z, box, D, hr, hc => by
    rw [crypt, Rc4.crypt]
    cases Rc4.step box y z with
    | error u => rfl
    | ok r =>
      obtain ⟨box', y', z', k⟩ := r
      simp only [ok_bind]
      have h0 := hr x (by omega) (by omega)
      have e0 : rd (P ++ D) (sp + x) = rd src x := by unfold rd; rw [h0]
      rw [e0]
      cases rd src x with
      | error u => rfl
      | ok c =>
        rw [ok_bind, ok_bind, wr_shift]
        cases e1 : wr D x (c ^^^ k) with
        | error u => rfl
        | ok D1 =>
          have o1 := wr_off e1
          rw [map_ok, ok_bind, ok_bind]
          refine crypt_same P src sp n (x + 1) y' z' box' D1 ?_ (by omega)
          intro i h1 h2
          rw [o1.read (by omega)]
          exact hr i (by omega) (by omega)

theorem put_get_lt {b xs : List Byte} {i j : Nat} (hi : i ≤ b.length) (h : j < i) : (put b i xs)[j]? = b[j]? := by
  unfold put
  rw [List.append_assoc, List.getElem?_append_left (by rw [List.length_take]; omega), List.getElem?_take_of_lt h]

theorem put_get_mid {b xs : List Byte} {i j : Nat} (hi : i ≤ b.length) (h : j < xs.length) : (put b i xs)[i + j]? = xs[j]? := by
  unfold put
  have hl : (b.take i).length = i := by rw [List.length_take]; omega
  rw [List.append_assoc, List.getElem?_append_right (by omega), hl, Nat.add_sub_cancel_left, List.getElem?_append_left h]

open Rc4.Spec in
theorem crypt_behind (mem : List Byte) (sp δ : Nat) (hδ : 0 < δ) : ∀ (n x : Nat) (i j : Byte) (box : List Byte) (S : Byte → Byte) (xs : List Byte),
    x = xs.length → sp + δ + x + n ≤ mem.length → Rc4.Rep box S →
    ∃ out, crypt (sp + δ) sp n x i.toNat j.toNat box (put mem (sp + δ) xs) = .ok (put mem (sp + δ) out) ∧ out.length = x + n ∧
      out.take x = xs ∧
      ∀ y, x ≤ y → y < x + n → out[y]? =
        ((prga n S i j)[y - x]?).bind fun k => (if y < δ then mem[sp + y]? else out[y - δ]?).map (· ^^^ k)
  | 0, x, i, j, box, S, xs, hx, hb, hr => ⟨xs, rfl, by omega, by rw [hx, List.take_length], fun y h1 h2 => by omega⟩
  | n + 1, x, i, j, box, S, xs, hx, hb, hr => by
    obtain ⟨box', hst, hrep⟩ := Rc4.step_rep hr i j
    obtain ⟨c, hc, hc'⟩ : ∃ c, (put mem (sp + δ) xs)[sp + x]? = some c ∧
        (if x < δ then mem[sp + x]? else xs[x - δ]?) = some c := by
      by_cases hxd : x < δ
      · rw [put_get_lt (by omega) (by omega), if_pos hxd]
        exact ⟨_, List.getElem?_eq_getElem (by omega), List.getElem?_eq_getElem (by omega)⟩
      · rw [show sp + x = sp + δ + (x - δ) by omega, put_get_mid (by omega) (by omega), if_neg hxd]
        exact ⟨_, List.getElem?_eq_getElem (by omega), List.getElem?_eq_getElem (by omega)⟩
    simp only [crypt, hst, ok_bind]
    rw [rd_of hc, ok_bind, wr_put (by omega) (by omega), ok_bind]
    generalize hk : swap S (i + 1) (j + S (i + 1)) (swap S (i + 1) (j + S (i + 1)) (i + 1) +
      swap S (i + 1) (j + S (i + 1)) (j + S (i + 1))) = k
    obtain ⟨out, h1, h2, h3, h4⟩ := crypt_behind mem sp δ hδ n (x + 1) (i + 1) (j + S (i + 1)) box' _ (xs ++ [c ^^^ k])
      (by simp; omega) (by omega) hrep
    have hx1 : ∀ y, y < x + 1 → out[y]? = (xs ++ [c ^^^ k])[y]? := by
      intro y hy
      rw [← h3, List.getElem?_take_of_lt hy]
    refine ⟨out, h1, by omega, ?_, ?_⟩
    · refine List.ext_getElem? ?_
      intro y
      by_cases hy : y < x
      · rw [List.getElem?_take_of_lt hy, hx1 y (by omega), List.getElem?_append_left (by omega)]
      · rw [List.getElem?_eq_none (by simp; omega), List.getElem?_eq_none (by omega)]
    · intro y hy1 hy2
      by_cases hyx : y = x
      · subst hyx
        rw [hx1 y (by omega), Nat.sub_self, hx, List.getElem?_append_right (by omega), Nat.sub_self]
        simp only [prga, List.getElem?_cons_zero, Option.bind_some, hk]
        rw [← hx]
        have : (if y < δ then mem[sp + y]? else out[y - δ]?) = some c := by
          rw [← hc']
          by_cases hyd : y < δ
          · simp only [hyd, if_true]
          · simp only [hyd, if_false]
            rw [hx1 (y - δ) (by omega), List.getElem?_append_left (by omega)]
        rw [this]; rfl
      · rw [h4 y (by omega) (by omega)]
        simp only [prga]
        rw [show y - x = (y - (x + 1)) + 1 by omega, List.getElem?_cons_succ]

end Ulz.Overlap

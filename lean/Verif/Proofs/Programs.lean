import Verif.Model.Programs
import Verif.Spec.Programs
import Verif.Props.Output
import Verif.Props.Hex
import Verif.Props.Crc
/-! Proofs about the example programs. -/
namespace Ulz.Programs
open Format Format.Spec Stringptr Output Numbers.Spec Spec

/-- The arrays have their sizes. -/
def Scratch.Ok (s : Scratch) : Prop := ∀ k, (s k).1.length = 4096 ∧ (s k).2.length = 32

theorem printf_items {s : Scratch} (hs : s.Ok) (k : Nat) {fmt : List Byte} {is : List Item} (hp : Parses fmt is false) {args : List Arg}
    {t : List Byte} (ht : render 0 is false args = .text t) (hl : t.length ≤ 4095) : printf s k fmt args = .ok t := by
  unfold printf
  rw [Props.fprintf_correct fmt [] is hp args t ht _ _ (hs k).1 (hs k).2, List.take_of_length_le hl]

theorem render_lits (w : Nat) (args : List Arg) (is : List Item) : ∀ (l : List Byte), render w (l.map Item.lit ++ is) false args = (render w is false args).prepend l
  | [] => by
    simp only [List.map_nil, List.nil_append]
    cases render w is false args <;> rfl
  | c :: l => by
    simp only [List.map_cons, List.cons_append, render, render_lits w args is l]
    cases render w is false args <;> rfl

theorem spell_append (a b : List Item) : spell (a ++ b) = spell a ++ spell b := by simp [spell]

theorem spell_lits (l : List Byte) : spell (l.map Item.lit) = l := by
  induction l with
  | nil => rfl
  | cons c l ih => simp only [List.map_cons, spell, List.flatten_cons, Item.spell] at ih ⊢; rw [ih]; rfl

/-- Literal text: no terminator and no percent sign. -/
def Plain (l : List Byte) : Prop := ∀ c ∈ l, c ≠ 0 ∧ c ≠ ch '%'
instance (l : List Byte) : Decidable (Plain l) := inferInstanceAs (Decidable (∀ c ∈ l, c ≠ 0 ∧ c ≠ ch '%'))

theorem plain_ok {l : List Byte} (h : Plain l) : ∀ i ∈ l.map Item.lit, i.Ok := by
  intro i hi
  obtain ⟨c, hc, rfl⟩ := List.mem_map.1 hi
  exact h c hc

theorem render_zu (v : BitVec 64) (args : List Arg) (is : List Item) :
    render 0 (.conv [] .zu :: is) false (.long v :: args) = (render 0 is false args).prepend (dec v.toNat) := by
  have e : dec v.toNat = numText 10 (by decide) false 0 (v.toNat : Int) := by rw [Props.numText_dec]; rfl
  simp only [render]
  rw [show pend [] 0 = 0 from rfl, convText_dec 0 (by decide) .zu (by simp) _ args (v.toNat : Int) rfl, e]

theorem dec_length (v : BitVec 64) : (dec v.toNat).length ≤ 20 := by
  unfold dec
  rw [List.length_map]
  exact (Numbers.digitsOf_length_le (by decide) 19 _).2 (by have := v.isLt; omega)

theorem printf_plain {s : Scratch} (hs : s.Ok) (k : Nat) {x : List Byte} (hx : Plain x) (hl : x.length ≤ 1000) : printf s k x [] = .ok x := by
  refine printf_items hs k (is := x.map Item.lit) ⟨plain_ok hx, ?_⟩ ?_ (by omega)
  · simp only [Bool.false_eq_true, if_false]; rw [spell_lits]
  · have := render_lits 0 [] [] x
    rw [List.append_nil] at this
    rw [this]
    simp [render, Outcome.prepend]

theorem printf_zu2 {s : Scratch} (hs : s.Ok) (k : Nat) {x y z : List Byte} (hx : Plain x) (hy : Plain y) (hz : Plain z)
    (hl : x.length + y.length + z.length ≤ 1000) (v w : BitVec 64) :
    printf s k (x ++ bytes! "%zu" ++ y ++ bytes! "%zu" ++ z) [.long v, .long w] = .ok (x ++ dec v.toNat ++ y ++ dec w.toNat ++ z) := by
  refine printf_items hs k (is := x.map Item.lit ++ (.conv [] .zu :: (y.map Item.lit ++ (.conv [] .zu :: (z.map Item.lit ++ []))))) ⟨?_, ?_⟩ ?_ ?_
  · intro i hi
    rcases List.mem_append.1 hi with h | h
    · exact plain_ok hx i h
    rcases List.mem_cons.1 h with h | h
    · rw [h]; simp [Item.Ok, PrecsOk]
    rcases List.mem_append.1 h with h | h
    · exact plain_ok hy i h
    rcases List.mem_cons.1 h with h | h
    · rw [h]; simp [Item.Ok, PrecsOk]
    rw [List.append_nil] at h
    exact plain_ok hz i h
  · simp only [Bool.false_eq_true, if_false]
    have e : ∀ (is : List Item), spell (.conv [] .zu :: is) = bytes! "%zu" ++ spell is := by
      intro is
      rw [show Item.conv [] Kind.zu :: is = [Item.conv [] Kind.zu] ++ is from rfl, spell_append]
      rfl
    rw [spell_append, e, spell_append, e, spell_append, spell_lits, spell_lits, spell_lits]
    simp [spell]
  · rw [render_lits, render_zu, render_lits, render_zu, render_lits]
    simp [render, Outcome.prepend]
  · have := dec_length v
    have := dec_length w
    simp only [List.length_append]
    omega

/-! ### hex -/

theorem hexLoop_spec {s : Scratch} (hs : s.Ok) : ∀ (reads : List (List Byte)) (k : Nat) (out : List Byte), out.length = 2049 → (∀ b ∈ reads, b.length ≤ 1024) →
    hexLoop s k out reads = .ok (Hex.Spec.text reads.flatten ++ bytes! "\n")
  | [], k, out, _, _ => by
    simp only [hexLoop]
    rw [printf_plain hs k (by decide) (by decide)]
    rfl
  | b :: reads, k, out, ho, h => by
    have hb := h b (List.mem_cons_self ..)
    obtain ⟨h1, hl⟩ := Props.raw2hex_correct out b (by omega)
    have h0 : 0 ∉ Hex.Spec.text b := by
      intro h0
      unfold Hex.Spec.text at h0
      obtain ⟨x, _, hx⟩ := List.mem_flatMap.1 h0
      have hd : ∀ n < 16, Hex.Spec.digit n ≠ 0 := by decide
      have := x.isLt
      simp only [List.mem_cons, List.not_mem_nil, or_false] at hx
      rcases hx with hx | hx
      · exact hd _ (by omega) hx.symm
      · exact hd _ (by omega) hx.symm
    simp only [hexLoop]
    rw [h1, ok_bind]
    have hp : printf s k (bytes! "%s") [.str (some (put out 0 (Hex.Spec.text b ++ [0])))] = .ok (Hex.Spec.text b) := by
      refine printf_items hs k (is := [.conv [] .s]) ⟨?_, ?_⟩ ?_ (by omega)
      · intro i hi; rw [List.mem_singleton.1 hi]; simp [Item.Ok, PrecsOk]
      · simp only [Bool.false_eq_true, if_false]; decide
      · simp only [render, convText, pend, List.getLast?_nil]
        rw [put_zero, List.append_assoc, if_pos (by simp)]
        have e : cstr (Hex.Spec.text b ++ ([0] ++ List.drop (Hex.Spec.text b ++ [0]).length out)) = Hex.Spec.text b := by
          unfold cstr
          rw [List.takeWhile_append_of_pos]
          · simp
          · intro a ha
            simp only [decide_eq_true_eq]
            intro h
            exact h0 (h ▸ ha)
        rw [e]
        simp [Outcome.prepend]
    rw [hp, ok_bind, hexLoop_spec hs reads (k + 1) _ (by rw [put_length (by simp; omega)]; exact ho) (fun c hc => h c (List.mem_cons_of_mem _ hc)), ok_bind]
    simp [Hex.Spec.text, List.flatMap_append]

/-! ### crc32_printer -/

theorem low_bit (c : BitVec 32) : (c &&& 1 ≠ 0) ↔ c.getLsbD 0 = true := by
  constructor
  · intro h
    cases hc : c.getLsbD 0
    · exfalso
      apply h
      apply BitVec.eq_of_getLsbD_eq
      intro i hi
      rw [BitVec.getLsbD_and]
      by_cases h0 : i = 0
      · rw [h0, hc]; decide
      · have e : ∀ i < 32, i ≠ 0 → (1 : BitVec 32).getLsbD i = false := by decide
        rw [e i hi h0]; simp
    · rfl
  · intro h e
    have := congrArg (fun x => BitVec.getLsbD x 0) e
    rw [BitVec.getLsbD_and, h] at this
    revert this; decide

theorem r4bits_eq : ∀ (n : Nat) (c : BitVec 32), r4bits n c = Crc.shn Crc.Spec.revCrc32 n c
  | 0, _ => rfl
  | n + 1, c => by
    simp only [r4bits, Crc.shn]
    rw [r4bits_eq n]
    congr 1
    unfold Crc.sh
    congr 1
    by_cases h : c.getLsbD 0 = true
    · rw [if_pos ((low_bit c).2 h), if_pos h]; rfl
    · rw [if_neg (fun e => h ((low_bit c).1 e)), if_neg h]

theorem r4update_eq : ∀ (xs : List Byte) (c : BitVec 32), r4update c xs = xs.foldl (Crc.byteS Crc.Spec.revCrc32) c
  | [], _ => rfl
  | x :: xs, c => by
    simp only [r4update, List.foldl_cons]
    rw [r4bits_eq, r4update_eq xs]
    rfl

theorem r4final_eq (c : BitVec 32) : r4final c = Crc.Spec.le32 c := by
  have h : ∀ (x : BitVec 32) (k : Nat), (x >>> k).setWidth 8 = x.extractLsb' k 8 := by
    intro x k
    apply BitVec.eq_of_getLsbD_eq
    intro i hi
    rw [BitVec.getLsbD_setWidth, BitVec.getLsbD_ushiftRight, BitVec.getLsbD_extractLsb']
  have h0 : c.setWidth 8 = c.extractLsb' 0 8 := by
    rw [← h c 0]; simp
  simp only [r4final, Crc.Spec.le32, h, h0]

theorem feedAll_spec (x : Ctx) (buf : List Byte) : feedAll x buf =
    .ok ⟨buf.foldl (Crc.byteS Crc.Spec.revCrc32c) x.c, buf.foldl (Crc.byteS Crc.Spec.revCrc32) x.s, buf.foldl (Crc.byteS Crc.Spec.revCrc32) x.r4⟩ := by
  unfold feedAll
  rw [Crc.update_spec Crc.tables_crc32c, ok_bind, Crc.update_spec Crc.tables_crc32, ok_bind, r4update_eq]
  rfl

theorem crcLoop_all : ∀ (fuel : Nat) (file : List Byte) (x : Ctx), file.length < fuel → crcLoop (-1) fuel file x =
    .ok ⟨file.foldl (Crc.byteS Crc.Spec.revCrc32c) x.c, file.foldl (Crc.byteS Crc.Spec.revCrc32) x.s, file.foldl (Crc.byteS Crc.Spec.revCrc32) x.r4⟩
  | 0, _, _, h => absurd h (Nat.not_lt_zero _)
  | fuel + 1, file, x, h => by
    unfold crcLoop
    simp only [ne_eq, not_true_eq_false, if_false]
    rw [if_neg (by rw [List.length_take]; omega)]
    by_cases h0 : file = []
    · subst h0; rfl
    · have hl : 0 < file.length := List.length_pos_iff.2 h0
      rw [if_neg (by rw [List.length_take]; omega), feedAll_spec, ok_bind]
      rw [crcLoop_all fuel _ _ (by rw [List.length_drop]; omega)]
      simp only [← List.foldl_append, List.take_append_drop]

theorem crcLoop_some (cnt : Int) (hc : cnt ≠ -1) (fuel : Nat) (file : List Byte) (x : Ctx) : crcLoop cnt (fuel + 1) file x =
    if 65536 < (file.take (cnt % 2 ^ 64).toNat).length then .error .oobWrite
    else .ok ⟨(file.take (cnt % 2 ^ 64).toNat).foldl (Crc.byteS Crc.Spec.revCrc32c) x.c, (file.take (cnt % 2 ^ 64).toNat).foldl (Crc.byteS Crc.Spec.revCrc32) x.s,
      (file.take (cnt % 2 ^ 64).toNat).foldl (Crc.byteS Crc.Spec.revCrc32) x.r4⟩ := by
  unfold crcLoop
  simp only [if_pos hc]
  generalize file.take (cnt % 2 ^ 64).toNat = buf
  by_cases h : 65536 < buf.length
  · rw [if_pos h, if_pos h]
  · rw [if_neg h, if_neg h]
    by_cases h0 : buf = []
    · subst h0; rfl
    · rw [if_neg (fun e => h0 (List.eq_nil_of_length_eq_zero e)), feedAll_spec]
      rfl

theorem crc_bytes (p : Crc.W32) (m : List Byte) : m.foldl (Crc.byteS p) 0xffffffff = ~~~ Crc.Spec.crc p m := by
  unfold Crc.Spec.crc
  rw [BitVec.not_not]
  generalize (0xffffffff : BitVec 32) = s
  induction m generalizing s with
  | nil => rfl
  | cons b m ih =>
    rw [List.foldl_cons, ih]
    unfold Crc.Spec.bits
    rw [List.flatMap_cons, List.foldl_append, Crc.feed_byte]

/-! ### find_identical_files -/

theorem compareLoop_spec : ∀ (fuel : Nat) (a b : List Byte), a.length < fuel →
    ∃ r, compareLoop fuel a b = .ok r ∧ (r = 0 ∨ r = 1) ∧ (r = 0 ↔ a <+: b ∧ (a = b ∨ 16384 ∣ a.length))
  | 0, _, _, h => absurd h (Nat.not_lt_zero _)
  | fuel + 1, a, b, h => by
    unfold compareLoop
    simp only
    by_cases h0 : a = []
    · subst h0
      exact ⟨0, rfl, Or.inl rfl, by simp⟩
    have hl : 0 < a.length := List.length_pos_iff.2 h0
    rw [if_neg (by rw [List.length_take]; omega)]
    by_cases h1 : (a.take 16384).length ≠ (b.take 16384).length
    · rw [if_pos h1]
      refine ⟨1, rfl, Or.inr rfl, by simp, ?_⟩
      rintro ⟨⟨t, rfl⟩, h2⟩
      exfalso
      apply h1
      rw [List.length_take, List.length_take, List.length_append]
      rcases h2 with h2 | h2
      · have : t = [] := by simpa using h2
        rw [this]; simp
      · have := Nat.le_of_dvd hl h2
        omega
    rw [if_neg h1]
    by_cases h2 : a.take 16384 ≠ b.take 16384
    · rw [if_pos h2]
      refine ⟨1, rfl, Or.inr rfl, by simp, ?_⟩
      rintro ⟨⟨t, rfl⟩, h3⟩
      exfalso
      rcases h3 with h3 | h3
      · have : t = [] := by simpa using h3
        rw [this] at h2; simp at h2
      · have := Nat.le_of_dvd hl h3
        rw [List.take_append_of_le_length this] at h2
        exact h2 rfl
    rw [if_neg h2]
    have h1 : (a.take 16384).length = (b.take 16384).length := Classical.not_not.1 h1
    have h2 : a.take 16384 = b.take 16384 := Classical.not_not.1 h2
    obtain ⟨r, hr, h01, hiff⟩ := compareLoop_spec fuel (a.drop (a.take 16384).length) (b.drop (a.take 16384).length) (by
      rw [List.length_drop, List.length_take]; omega)
    refine ⟨r, hr, h01, hiff.trans ?_⟩
    have ea : a = a.take 16384 ++ a.drop (a.take 16384).length := by
      rw [List.length_take]
      by_cases h : 16384 ≤ a.length
      · rw [Nat.min_eq_left h, List.take_append_drop]
      · rw [Nat.min_eq_right (by omega), List.take_of_length_le (by omega), List.drop_length, List.append_nil]
    have eb : b = a.take 16384 ++ b.drop (a.take 16384).length := by
      rw [h1, h2, List.length_take]
      by_cases h : 16384 ≤ b.length
      · rw [Nat.min_eq_left h, List.take_append_drop]
      · rw [Nat.min_eq_right (by omega), List.take_of_length_le (by omega), List.drop_length, List.append_nil]
    have e1 : a <+: b ↔ a.drop (a.take 16384).length <+: b.drop (a.take 16384).length := by
      conv => lhs; rw [eb]; lhs; rw [ea]
      exact List.prefix_append_right_inj _
    have e2 : a = b ↔ a.drop (a.take 16384).length = b.drop (a.take 16384).length := by
      constructor
      · intro h; rw [← h]
      · intro h; rw [ea, eb, h]
    rw [e1, e2]
    rw [List.length_drop, List.length_take]
    by_cases h : 16384 ≤ a.length
    · rw [Nat.min_eq_left h]
      have : 16384 ∣ a.length - 16384 ↔ 16384 ∣ a.length := by omega
      rw [this]
    · rw [List.length_take, List.length_take] at h1
      have hb : b.length = a.length := by omega
      rw [Nat.min_eq_right (by omega), List.drop_length, List.drop_of_length_le (by omega)]
      simp

/-! ### diff -/

theorem differs_length (a b : List Byte) : (differs a b).length = min a.length b.length := by simp [differs]

theorem differs_get {a b : List Byte} {i : Nat} {d : Bool} (h : (differs a b)[i]? = some d) :
    ∃ x y, rd a i = .ok x ∧ rd b i = .ok y ∧ d = decide (x ≠ y) := by
  unfold differs at h
  rw [List.getElem?_map] at h
  obtain ⟨q, hq, rfl⟩ := Option.map_eq_some_iff.1 h
  obtain ⟨x, y⟩ := q
  rw [List.getElem?_zip_eq_some] at hq
  refine ⟨x, y, ?_, ?_, rfl⟩
  · unfold rd; rw [hq.1]
  · unfold rd; rw [hq.2]

/-- The bytes the loops look at. -/
structure Looks (a b : List Byte) (d : List Bool) : Prop where
  room : d.length + 1 ≤ a.length
  get : ∀ i v, d[i]? = some v → ∃ x y, rd a i = .ok x ∧ rd b i = .ok y ∧ v = decide (x ≠ y)

theorem scan_spec {a b : List Byte} {d : List Bool} (hd : Looks a b d) {o r : Nat} (hr : 0 < r) (hor : o + r ≤ d.length)
    (h1 : ∀ i, o ≤ i → i < o + r → d[i]? = some true) (h2 : d[o + r]? ≠ some true) :
    ∀ (fuel l : Nat), d.length + 1 ≤ fuel + l → l < r → o + 2 * l ≤ d.length →
    scan a b d.length fuel (o + l) l = .ok (if o + 2 * r ≤ d.length then (o + r, r) else (o + (d.length - o) / 2, (d.length - o) / 2 + 1))
  | 0, l, hf, hl, _ => by omega
  | fuel + 1, l, hf, hl, hb => by
    unfold scan
    simp only
    have := hd.room
    rw [if_neg (by omega)]
    by_cases hc : o + l + (l + 1) < d.length
    · rw [if_pos hc]
      have hlt : o + l + 1 < d.length := by omega
      obtain ⟨x, y, hx, hy, hv⟩ := hd.get (o + l + 1) d[o + l + 1] (List.getElem?_eq_getElem hlt)
      rw [hx, hy]
      simp only [ok_bind]
      by_cases hlr : l + 1 < r
      · have ht := h1 (o + l + 1) (by omega) (by omega)
        rw [List.getElem?_eq_getElem hlt] at ht
        injection ht with ht
        rw [ht] at hv
        rw [if_pos (of_decide_eq_true hv.symm)]
        exact scan_spec hd hr hor h1 h2 fuel (l + 1) (by omega) hlr (by omega)
      · have hlr : r = l + 1 := by omega
        subst hlr
        rw [List.getElem?_eq_getElem (by omega)] at h2
        have hf : d[o + l + 1] = false := by
          cases hq : d[o + l + 1]
          · rfl
          · exact absurd (congrArg some hq) h2
        rw [hf] at hv
        rw [if_neg (of_decide_eq_false hv.symm), if_pos (by omega)]
        rfl
    · rw [if_neg hc, if_neg (by omega)]
      have e : (d.length - o) / 2 = l := by omega
      rw [e]
      rfl

theorem runs_false (k : Nat) (t : List Bool) : runs k (false :: t) = runs (k + 1) t := by rw [runs]

theorem runs_true (k : Nat) (t : List Bool) :
    runs k (true :: t) = (k, (t.takeWhile id).length + 1) :: runs (k + (t.takeWhile id).length + 1) (t.dropWhile id) := by rw [runs]

theorem runs_nil (k : Nat) : runs k [] = [] := by rw [runs]

/-- The first run, by positions. -/
theorem first_run (t : List Bool) : let r := (t.takeWhile id).length
    r ≤ t.length ∧ (∀ i, i < r → t[i]? = some true) ∧ t[r]? ≠ some true ∧ t.dropWhile id = t.drop r := by
  induction t with
  | nil => simp
  | cons c t ih =>
    obtain ⟨i1, i2, i3, i4⟩ := ih
    cases c
    · simp
    · simp only [List.takeWhile_cons, id, if_true, List.length_cons, List.dropWhile_cons, List.drop_succ_cons, List.getElem?_cons_succ]
      refine ⟨by omega, ?_, i3, i4⟩
      intro i hi
      cases i with
      | zero => rfl
      | succ i => rw [List.getElem?_cons_succ]; exact i2 i (by omega)

/-- A run can be cut anywhere. -/
theorem runs_cut (l : Nat) : ∀ (k : Nat) (t : List Bool), 0 < l → l ≤ (t.takeWhile id).length →
    runs k t = (k, (t.takeWhile id).length) :: runs (k + (t.takeWhile id).length) (t.dropWhile id) ∧
    runs (k + l) (t.drop l) = (if l < (t.takeWhile id).length then [(k + l, (t.takeWhile id).length - l)] else []) ++
      runs (k + (t.takeWhile id).length) (t.dropWhile id) := by
  induction l with
  | zero => intro k t h; omega
  | succ l ih =>
    intro k t _ h
    cases t with
    | nil => simp at h
    | cons c t =>
      cases c
      · simp at h
      · simp only [List.takeWhile_cons, id, if_true, List.length_cons, List.dropWhile_cons, List.drop_succ_cons] at h ⊢
        refine ⟨runs_true k t, ?_⟩
        cases l with
        | zero =>
          simp only [List.drop_zero]
          cases t with
          | nil => simp [runs_nil]
          | cons c t =>
            cases c
            · simp
            · simp only [List.takeWhile_cons, id, if_true, List.length_cons, List.dropWhile_cons]
              rw [runs_true, if_pos (by omega)]
              simp only [List.singleton_append, List.cons.injEq, Prod.mk.injEq, true_and]
              refine ⟨by omega, ?_⟩
              congr 1; omega
        | succ l =>
          have := (ih (k + 1) t (by omega) (by omega)).2
          rw [show k + 1 + (l + 1) = k + (l + 1 + 1) by omega, show k + 1 + (t.takeWhile id).length = k + ((t.takeWhile id).length + 1) by omega] at this
          rw [this]
          by_cases hq : l + 1 < (t.takeWhile id).length
          · rw [if_pos hq, if_pos (by omega), show (t.takeWhile id).length + 1 - (l + 1 + 1) = (t.takeWhile id).length - (l + 1) by omega]
          · rw [if_neg hq, if_neg (by omega)]

theorem bv_line (q : Int × Nat) (h : q.2 < 2 ^ 64) {s : Scratch} (hs : s.Ok) (k : Nat) :
    printf s k (bytes! "difference at offset %zu of size %zu\n") [zu q.1, zu q.2] = .ok (line q) := by
  have := printf_zu2 hs k (x := bytes! "difference at offset ") (y := bytes! " of size ") (z := bytes! "\n") (by decide) (by decide) (by decide) (by decide)
    (BitVec.ofInt 64 q.1) (BitVec.ofInt 64 q.2)
  rw [show (BitVec.ofInt 64 q.1).toNat = (q.1 % 2 ^ 64).toNat from BitVec.toNat_ofInt .., show (BitVec.ofInt 64 (q.2 : Int)).toNat = q.2 by
    rw [BitVec.toNat_ofInt]; omega] at this
  exact this

theorem diffLoop_spec {s : Scratch} (hs : s.Ok) {a b : List Byte} {d : List Bool} (hd : Looks a b d) (h64 : d.length < 2 ^ 64) :
    ∀ (fuel p k diffs : Nat), d.length + 1 ≤ fuel + p → p ≤ d.length →
    diffLoop s a b d.length fuel k p diffs = .ok (((reports d.length p (d.drop p)).map line).flatten,
      k + (reports d.length p (d.drop p)).length, diffs + (reports d.length p (d.drop p)).length)
  | 0, p, k, diffs, hf, hp => by omega
  | fuel + 1, p, k, diffs, hf, hp => by
    unfold diffLoop
    by_cases hlt : p < d.length
    · rw [if_pos hlt]
      obtain ⟨x, y, hx, hy, hv⟩ := hd.get p d[p] (List.getElem?_eq_getElem hlt)
      rw [hx, hy]
      simp only [ok_bind]
      have hdrop : d.drop p = d[p] :: d.drop (p + 1) := List.drop_eq_getElem_cons hlt
      cases hq : d[p]
      · rw [hq] at hv hdrop
        rw [if_neg (of_decide_eq_false hv.symm), diffLoop_spec hs hd h64 fuel (p + 1) k diffs (by omega) (by omega)]
        have e : reports d.length p (d.drop p) = reports d.length (p + 1) (d.drop (p + 1)) := by
          unfold reports; rw [hdrop, runs_false]
        rw [e]
      · rw [hq] at hv hdrop
        rw [if_pos (of_decide_eq_true hv.symm)]
        obtain ⟨f1, f2, f3, f4⟩ := first_run (d.drop p)
        have hr0 : 0 < ((d.drop p).takeWhile id).length := by rw [hdrop]; simp
        generalize hr : ((d.drop p).takeWhile id).length = r at f1 f2 f3 f4 hr0
        rw [List.length_drop] at f1
        have g1 : ∀ i, p ≤ i → i < p + r → d[i]? = some true := by
          intro i h1 h2
          have := f2 (i - p) (by omega)
          rw [List.getElem?_drop, show p + (i - p) = i by omega] at this
          exact this
        have g2 : d[p + r]? ≠ some true := by
          rw [List.getElem?_drop] at f3; exact f3
        have hscan : scan a b d.length (d.length + 1) p 0 = _ := scan_spec hd hr0 (by omega) g1 g2 (d.length + 1) 0 (by omega) hr0 (by omega)
        rw [hscan, ok_bind]
        have hcut := fun l h0 h1 => runs_cut l p (d.drop p) h0 (by rw [hr]; exact h1)
        rw [hr] at hcut
        have hpieces : reports d.length p (d.drop p) = pieces d.length p r ++ reports d.length (p + r) (d.drop (p + r)) := by
          unfold reports
          rw [(hcut 1 (by omega) (by omega)).1, f4, List.drop_drop]
          simp [Nat.add_comm]
        by_cases hfar : p + 2 * r ≤ d.length
        · rw [if_pos hfar]
          simp only
          have hl := bv_line ((p : Int), r) (by simp only; omega) hs k
          rw [show ((p + r : Nat) : Int) - (r : Int) = (p : Int) by omega, hl]
          simp only [ok_bind]
          rw [diffLoop_spec hs hd h64 fuel (p + r + 1) (k + 1) (diffs + 1) (by omega) (by omega)]
          have hlt2 : p + r < d.length := by omega
          have e2 : reports d.length (p + r) (d.drop (p + r)) = reports d.length (p + r + 1) (d.drop (p + r + 1)) := by
            have : d[p + r] = false := by
              rw [List.getElem?_eq_getElem hlt2] at g2
              cases hz : d[p + r]
              · rfl
              · exact absurd (congrArg some hz) g2
            unfold reports
            rw [List.drop_eq_getElem_cons hlt2, this, runs_false]
          have e3 : pieces d.length p r = [((p : Int), r)] := by rw [pieces, if_pos hfar]
          rw [hpieces, e2, e3]
          simp only [ok_bind, pure_eq_ok, List.singleton_append, List.map_cons, List.flatten_cons, List.length_cons]
          congr 3
          · omega
          · omega
        · rw [if_neg hfar]
          simp only
          generalize hL : (d.length - p) / 2 + 1 = L at *
          have hL1 : 0 < L := by omega
          have hLr : L ≤ r := by omega
          have hl := bv_line ((p : Int) - 1, L) (by simp only; omega) hs k
          rw [show ((p + (d.length - p) / 2 : Nat) : Int) - (L : Int) = (p : Int) - 1 by omega, hl]
          simp only [ok_bind]
          rw [show p + (d.length - p) / 2 + 1 = p + L by omega, diffLoop_spec hs hd h64 fuel (p + L) (k + 1) (diffs + 1) (by omega) (by omega)]
          have e3 : pieces d.length p r = ((p : Int) - 1, L) :: if L < r then pieces d.length (p + L) (r - L) else [] := by
            rw [pieces, if_neg hfar, hL]
          have e4 : reports d.length (p + L) (d.drop (p + L)) = (if L < r then pieces d.length (p + L) (r - L) else []) ++
              reports d.length (p + r) (d.drop (p + r)) := by
            have := (hcut L hL1 hLr).2
            rw [List.drop_drop] at this
            unfold reports
            rw [this, f4, List.drop_drop]
            by_cases hq : L < r
            · rw [if_pos hq, if_pos hq]; simp
            · rw [if_neg hq, if_neg hq]; rfl
          rw [hpieces, e3, List.cons_append, ← e4]
          simp only [ok_bind, pure_eq_ok, List.map_cons, List.flatten_cons, List.length_cons]
          congr 3
          · omega
          · omega
    · rw [if_neg hlt]
      rw [List.drop_of_length_le (by omega)]
      simp [reports, runs_nil]

/-! ### The runs are the maximal blocks -/

theorem mem_runs (n : Nat) : ∀ (t : List Bool), t.length ≤ n → ∀ k o r, (o, r) ∈ runs k t ↔ ∃ j, o = k + j ∧ IsRun t j r := by
  induction n with
  | zero =>
    intro t ht k o r
    have : t = [] := List.eq_nil_of_length_eq_zero (by omega)
    subst this
    rw [runs_nil]
    constructor
    · intro h; simp at h
    · rintro ⟨j, _, h0, h1, _⟩
      simp at h1; omega
  | succ n ih =>
    intro t ht k o r
    cases t with
    | nil =>
      rw [runs_nil]
      constructor
      · intro h; simp at h
      · rintro ⟨j, _, h0, h1, _⟩
        simp at h1; omega
    | cons c t =>
      simp only [List.length_cons] at ht
      cases c
      · rw [runs_false, ih t (by omega) (k + 1) o r]
        constructor
        · rintro ⟨j, rfl, h0, h1, h2, h3, h4⟩
          refine ⟨j + 1, by omega, h0, by simp only [List.length_cons]; omega, ?_, ?_, ?_⟩
          · intro i hi1 hi2
            obtain ⟨i, rfl⟩ : ∃ i', i = i' + 1 := ⟨i - 1, by omega⟩
            rw [List.getElem?_cons_succ]
            exact h2 i (by omega) (by omega)
          · rw [show j + 1 + r = j + r + 1 by omega, List.getElem?_cons_succ]; exact h3
          · refine Or.inr ?_
            rw [Nat.add_sub_cancel]
            rcases h4 with rfl | h4
            · rfl
            · cases j with
              | zero => rfl
              | succ j => rw [List.getElem?_cons_succ]; exact h4
        · rintro ⟨j, rfl, h0, h1, h2, h3, h4⟩
          cases j with
          | zero =>
            have := h2 0 (by omega) (by omega)
            simp at this
          | succ j =>
            refine ⟨j, by omega, h0, by simp only [List.length_cons] at h1; omega, ?_, ?_, ?_⟩
            · intro i hi1 hi2
              have := h2 (i + 1) (by omega) (by omega)
              rwa [List.getElem?_cons_succ] at this
            · rw [show j + 1 + r = j + r + 1 by omega, List.getElem?_cons_succ] at h3; exact h3
            · cases j with
              | zero => exact Or.inl rfl
              | succ j =>
                refine Or.inr ?_
                rcases h4 with h4 | h4
                · omega
                · rw [show j + 1 + 1 - 1 = j + 1 by omega, List.getElem?_cons_succ] at h4
                  exact h4
      · rw [runs_true]
        obtain ⟨f1, f2, f3, f4⟩ := first_run t
        have hR := ih (t.dropWhile id) (by rw [f4, List.length_drop]; omega) (k + (t.takeWhile id).length + 1) o r
        generalize hr : (t.takeWhile id).length = R at *
        rw [List.mem_cons, hR, f4]
        have g2 : ∀ i, i < R + 1 → (true :: t)[i]? = some true := by
          intro i hi
          cases i with
          | zero => rfl
          | succ i => rw [List.getElem?_cons_succ]; exact f2 i (by omega)
        have g3 : (true :: t)[R + 1]? ≠ some true := by rw [List.getElem?_cons_succ]; exact f3
        have g4 : ∀ i, (t.drop R)[i]? = (true :: t)[R + 1 + i]? := by
          intro i
          rw [List.getElem?_drop, show R + 1 + i = R + i + 1 by omega, List.getElem?_cons_succ]
        constructor
        · rintro (h | ⟨j, rfl, h0, h1, h2, h3, h4⟩)
          · injection h with ho hr'
            subst ho; subst hr'
            refine ⟨0, rfl, by omega, by simp only [List.length_cons]; omega, ?_, ?_, Or.inl rfl⟩
            · intro i _ hi; exact g2 i (by omega)
            · rw [Nat.zero_add]; exact g3
          · rw [List.length_drop] at h1
            refine ⟨R + 1 + j, by omega, h0, by simp only [List.length_cons]; omega, ?_, ?_, Or.inr ?_⟩
            · intro i hi1 hi2
              have := h2 (i - (R + 1)) (by omega) (by omega)
              rw [g4, show R + 1 + (i - (R + 1)) = i by omega] at this
              exact this
            · rw [g4] at h3
              rw [show R + 1 + j + r = R + 1 + (j + r) by omega]; exact h3
            · rcases h4 with rfl | h4
              · have := h2 0 (by omega) (by omega)
                rw [g4] at this
                exact absurd this g3
              · rw [g4] at h4
                cases j with
                | zero =>
                  have := h2 0 (by omega) (by omega)
                  rw [g4] at this
                  exact absurd this g3
                | succ j =>
                  rw [show R + 1 + (j + 1) - 1 = R + 1 + (j + 1 - 1) by omega]; exact h4
        · rintro ⟨j, rfl, h0, h1, h2, h3, h4⟩
          cases j with
          | zero =>
            left
            have : r = R + 1 := by
              rcases Nat.lt_trichotomy r (R + 1) with h | h | h
              · rw [Nat.zero_add] at h3
                exact absurd (g2 r h) h3
              · exact h
              · exact absurd (h2 (R + 1) (by omega) (by omega)) g3
            subst this
            rfl
          | succ j =>
            right
            have h4 : (true :: t)[j]? = some false := by
              rcases h4 with h4 | h4
              · omega
              · exact h4
            have hj : R + 1 ≤ j := by
              rcases Nat.lt_or_ge j (R + 1) with h | h
              · rw [g2 j h] at h4; simp at h4
              · exact h
            refine ⟨j + 1 - (R + 1), by omega, h0, ?_, ?_, ?_, Or.inr ?_⟩
            · rw [List.length_drop]; simp only [List.length_cons] at h1; omega
            · intro i hi1 hi2
              rw [g4]
              exact h2 _ (by omega) (by omega)
            · rw [g4, show R + 1 + (j + 1 - (R + 1) + r) = j + 1 + r by omega]; exact h3
            · rw [g4, show R + 1 + (j + 1 - (R + 1) - 1) = j by omega]; exact h4

theorem pieces_length (n : Nat) : ∀ (r o : Nat), 0 < r → (pieces n o r).length ≤ r := by
  intro r
  induction r using Nat.strongRecOn with
  | _ r ih =>
    intro o hr
    rw [pieces]
    by_cases h : o + 2 * r ≤ n
    · rw [if_pos h]; exact hr
    · rw [if_neg h]
      simp only
      by_cases h2 : (n - o) / 2 + 1 < r
      · rw [if_pos h2]
        have := ih (r - ((n - o) / 2 + 1)) (by omega) (o + ((n - o) / 2 + 1)) (by omega)
        simp only [List.length_cons]
        omega
      · rw [if_neg h2]; exact hr

theorem reports_length (n m : Nat) : ∀ (t : List Bool), t.length ≤ m → ∀ k, (reports n k t).length ≤ t.length := by
  induction m with
  | zero =>
    intro t ht k
    have : t = [] := List.eq_nil_of_length_eq_zero (by omega)
    subst this
    simp [reports, runs_nil]
  | succ m ih =>
    intro t ht k
    cases t with
    | nil => simp [reports, runs_nil]
    | cons c t =>
      simp only [List.length_cons] at ht
      cases c
      · have := ih t (by omega) (k + 1)
        unfold reports at this ⊢
        rw [runs_false, List.length_cons]
        omega
      · obtain ⟨f1, _, _, f4⟩ := first_run t
        have := ih (t.dropWhile id) (by rw [f4, List.length_drop]; omega) (k + (t.takeWhile id).length + 1)
        have h2 := pieces_length n ((t.takeWhile id).length + 1) k (by omega)
        unfold reports at this ⊢
        rw [runs_true, List.flatMap_cons, List.length_append, List.length_cons]
        simp only
        rw [f4, List.length_drop] at this
        rw [f4]
        omega

theorem diff_spec {s : Scratch} (hs : s.Ok) {f1 f2 : SP} {A B : List Byte} (h1 : Holds f1 A) (h2 : Holds f2 B) (hroom : f1.size < f1.buf.length)
    (hA : A.length < 2 ^ 64) (hB : B.length < 2 ^ 64) :
    diff s (some f1) (some f2) = .ok (some (
      (if A.length = B.length then [] else bytes! "sizes differ! " ++ dec A.length ++ bytes! ", " ++ dec B.length ++ bytes! "\n") ++
      ((reports (min A.length B.length) 0 (differs A B)).map line).flatten ++
      (dec (reports (min A.length B.length) 0 (differs A B)).length ++ bytes! " differences in " ++ dec (min A.length B.length) ++ bytes! " bytes detected.\n"))) := by
  have e1 : f1.size = A.length := h1.1
  have e2 : f2.size = B.length := h2.1
  obtain ⟨j1, hj1⟩ := h1.2
  obtain ⟨j2, hj2⟩ := h2.2
  have hlen : (differs A B).length = min A.length B.length := differs_length A B
  have hl : Looks f1.buf f2.buf (differs A B) := by
    refine ⟨by omega, ?_⟩
    intro i v hv
    obtain ⟨x, y, hx, hy, e⟩ := differs_get hv
    have hi : i < (differs A B).length := by
      rcases Nat.lt_or_ge i (differs A B).length with h | h
      · exact h
      · rw [List.getElem?_eq_none h] at hv; simp at hv
    refine ⟨x, y, ?_, ?_, e⟩
    · rw [← hj1, rd_append_left (by omega)]; exact hx
    · rw [← hj2, rd_append_left (by omega)]; exact hy
  have hloop := fun k => diffLoop_spec hs hl (by omega) (min A.length B.length + 1) 0 k 0 (by omega) (by omega)
  rw [List.drop_zero, hlen] at hloop
  have hrl : (reports (min A.length B.length) 0 (differs A B)).length ≤ min A.length B.length := by
    have := reports_length (min A.length B.length) _ (differs A B) (Nat.le_refl _) 0
    omega
  have nat : ∀ n : Nat, n < 2 ^ 64 → (BitVec.ofInt 64 (n : Int)).toNat = n := by
    intro n hn; rw [BitVec.toNat_ofInt]; omega
  have htot := fun k => printf_zu2 hs k (x := []) (y := bytes! " differences in ") (z := bytes! " bytes detected.\n") (by decide) (by decide) (by decide) (by decide)
    (BitVec.ofInt 64 ((reports (min A.length B.length) 0 (differs A B)).length : Nat)) (BitVec.ofInt 64 (min A.length B.length : Nat))
  simp only [List.nil_append] at htot
  rw [nat _ (by omega), nat _ (by omega)] at htot
  have hsz := printf_zu2 hs 0 (x := bytes! "sizes differ! ") (y := bytes! ", ") (z := bytes! "\n") (by decide) (by decide) (by decide) (by decide)
    (BitVec.ofInt 64 A.length) (BitVec.ofInt 64 B.length)
  rw [nat _ hA, nat _ hB] at hsz
  unfold diff
  simp only [e1, e2]
  by_cases h : A.length = B.length
  · rw [if_neg (by simp [h]), if_pos h]
    have hm : min A.length B.length = A.length := by omega
    rw [hm] at hloop htot ⊢
    simp only [pure_eq_ok, ok_bind]
    rw [hloop 0]
    simp only [ok_bind, Nat.zero_add]
    have := htot (reports A.length 0 (differs A B)).length
    unfold zu
    rw [show (bytes! "%zu differences in %zu bytes detected.\n") = bytes! "%zu" ++ bytes! " differences in " ++ bytes! "%zu" ++ bytes! " bytes detected.\n" from rfl, this]
    rfl
  · rw [if_pos (fun e => h e.symm), if_neg h]
    have hm : (if B.length < A.length then B.length else A.length) = min A.length B.length := by split <;> omega
    rw [hm]
    unfold zu
    rw [show (bytes! "sizes differ! %zu, %zu\n") = bytes! "sizes differ! " ++ bytes! "%zu" ++ bytes! ", " ++ bytes! "%zu" ++ bytes! "\n" from rfl, hsz]
    simp only [pure_eq_ok, ok_bind]
    rw [hloop 1]
    simp only [ok_bind, Nat.zero_add]
    have := htot (1 + (reports (min A.length B.length) 0 (differs A B)).length)
    rw [show (bytes! "%zu differences in %zu bytes detected.\n") = bytes! "%zu" ++ bytes! " differences in " ++ bytes! "%zu" ++ bytes! " bytes detected.\n" from rfl, this]
    rfl

end Ulz.Programs

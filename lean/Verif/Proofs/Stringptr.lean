import Verif.Proofs.Mem
import Verif.Proofs.Hex
import Verif.Spec.Stringptr
/-! Proofs about stringptr. -/
namespace Ulz.Stringptr
open Spec

theorem holds_iff {p : SP} {s : List Byte} : Holds p s ↔ ∃ junk, p = ⟨s ++ junk, s.length⟩ := by
  constructor
  · rintro ⟨h1, j, h2⟩; exact ⟨j, by cases p; simp_all⟩
  · rintro ⟨j, rfl⟩; exact ⟨rfl, j, rfl⟩

theorem rdN_prefix {A B : List Byte} {n : Nat} (h : n = A.length) : rdN (A ++ B) 0 n = .ok A := by
  simpa using rdN_mid (A := []) (M := A) (B := B) (i := 0) (n := n) rfl h

theorem rdN_ok {b : List Byte} {i n : Nat} (h : i + n ≤ b.length) : rdN b i n = .ok ((b.drop i).take n) := by
  unfold rdN; rw [if_pos h]

theorem eq_spec {a b : SP} {x y : List Byte} (ha : Holds a x) (hb : Holds b y) :
    eq (some a) (some b) = .ok (decide (x = y)) := by
  obtain ⟨j, rfl⟩ := holds_iff.1 ha
  obtain ⟨k, rfl⟩ := holds_iff.1 hb
  unfold eq
  simp only
  split
  · rename_i h
    unfold memEq
    rw [rdN_prefix rfl, rdN_prefix h]
    rfl
  · rename_i h
    have : x ≠ y := fun e => h (by rw [e])
    simp [this]

theorem memEq_spec {n h j k : List Byte} {pos : Nat} (hp : pos + n.length ≤ h.length) :
    memEq (n ++ j) 0 (h ++ k) pos n.length = .ok (decide (n <+: h.drop pos)) := by
  unfold memEq
  rw [rdN_prefix rfl, rdN_ok (by simp; omega)]
  simp only [ok_bind, pure_eq_ok]
  congr 1
  rw [List.drop_append_of_le_length (by omega), List.take_append_of_le_length (by simp; omega)]
  apply decide_eq_decide.2
  constructor
  · intro e; rw [e]; exact List.take_prefix _ _
  · intro e; exact List.prefix_iff_eq_take.1 e

theorem here_spec {h n : SP} {x y : List Byte} (hh : Holds h x) (hn : Holds n y) (hx : x.length < 2^64) {pos : Nat}
    (hp : pos ≤ x.length) : here h pos n = .ok (decide (y <+: x.drop pos)) := by
  obtain ⟨j, rfl⟩ := holds_iff.1 hh
  obtain ⟨k, rfl⟩ := holds_iff.1 hn
  unfold here
  simp only
  rw [sztSub_of_le hp hx]
  split
  · exact memEq_spec (by omega)
  · rename_i h
    have : ¬ y <+: x.drop pos := fun e => h (by have := e.length_le; simpa using this)
    simp [this]

theorem infix_iff {y x : List Byte} : y <:+: x ↔ ∃ k, k + y.length ≤ x.length ∧ y <+: x.drop k := by
  constructor
  · rintro ⟨p, q, rfl⟩
    exact ⟨p.length, by simp, by simp⟩
  · rintro ⟨k, _, t, h⟩
    exact ⟨x.take k, t, by rw [List.append_assoc, h, List.take_append_drop]⟩

theorem containsLoop_spec {x y j k : List Byte} (hx : x.length < 2^64) :
    ∀ (fuel pos : Nat), pos ≤ x.length → x.length + 2 ≤ pos + fuel →
      ∃ r, containsLoop ⟨x ++ j, x.length⟩ ⟨y ++ k, y.length⟩ fuel pos = .ok r ∧
        (r = true ↔ ∃ i, pos ≤ i ∧ i + y.length ≤ x.length ∧ y <+: x.drop i) ∨ y = [] ∧
          containsLoop ⟨x ++ j, x.length⟩ ⟨y ++ k, y.length⟩ fuel pos = .ok true := by
  intro fuel
  induction fuel with
  | zero => intro pos h1 h2; omega
  | succ fuel ih =>
    intro pos h1 h2
    unfold containsLoop
    simp only
    rw [sztSub_of_le h1 hx]
    split
    · rename_i hle
      rw [memEq_spec (by omega)]
      simp only [ok_bind]
      by_cases hp : y <+: x.drop pos
      · by_cases hy : y = []
        · exact ⟨true, Or.inr ⟨hy, by simp [hp]⟩⟩
        · exact ⟨true, Or.inl ⟨by simp [hp], by simp; exact ⟨pos, by omega, by omega, hp⟩⟩⟩
      · simp only [hp, decide_false, Bool.false_eq_true, if_false]
        have hy : y ≠ [] := by rintro rfl; exact hp (List.nil_prefix)
        have : 0 < y.length := List.length_pos_iff.2 hy
        obtain ⟨r, hr | hr⟩ := ih (pos + 1) (by omega) (by omega)
        · refine ⟨r, Or.inl ⟨hr.1, hr.2.trans ?_⟩⟩
          constructor
          · rintro ⟨i, a, b, c⟩; exact ⟨i, by omega, b, c⟩
          · rintro ⟨i, a, b, c⟩
            rcases Nat.eq_or_lt_of_le a with rfl | a
            · exact absurd c hp
            · exact ⟨i, a, b, c⟩
        · exact absurd hr.1 hy
    · rename_i hgt
      refine ⟨false, Or.inl ⟨rfl, ?_⟩⟩
      simp only [Bool.false_eq_true, false_iff]
      rintro ⟨i, a, b, _⟩
      omega

theorem contains_spec {h n : SP} {x y : List Byte} (hh : Holds h x) (hn : Holds n y) (hx : x.length < 2^64) :
    ∃ r, contains h n = .ok r ∧ (r = true ↔ y <:+: x) := by
  obtain ⟨j, rfl⟩ := holds_iff.1 hh
  obtain ⟨k, rfl⟩ := holds_iff.1 hn
  unfold contains
  obtain ⟨r, hr | hr⟩ := containsLoop_spec (x := x) (y := y) (j := j) (k := k) hx (x.length + 2) 0 (by omega) (by omega)
  · refine ⟨r, hr.1, hr.2.trans ?_⟩
    rw [infix_iff]
    simp
  · refine ⟨true, hr.2, ?_⟩
    simp [hr.1]

/-! ### hash -/

theorem and_f0 (x : Nat) : x &&& 0xf0 = x / 16 % 16 * 16 := by
  have h : ∀ y : Fin 256, y.val &&& 0xf0 = y.val / 16 % 16 * 16 := by decide +kernel
  have h2 : x &&& 0xf0 = (x % 256) &&& 0xf0 := by
    have e : (x &&& 0xf0) % 2^8 = (x % 2^8) &&& (0xf0 % 2^8) := Nat.and_mod_two_pow
    rw [Nat.mod_eq_of_lt (Nat.lt_of_le_of_lt Nat.and_le_right (by decide))] at e
    exact e
  have h3 := h ⟨x % 256, Nat.mod_lt _ (by decide)⟩
  simp only at h3
  rw [h2, h3]
  have : x % 256 / 16 % 16 = x / 16 % 16 := by omega
  rw [this]

theorem hashStep_spec {w : Nat} (hw : w = 32 ∨ w = 64) (h : BitVec w) (c : Byte) :
    (hashStep w h c).toNat % 2^28 = elfStep (h.toNat % 2^28) c := by
  have key : ∀ t : Nat, (t ^^^ (t / 2^24 &&& 0xf0)) % 2^28 = t % 2^32 % 2^28 ^^^ t % 2^32 / 2^28 * 16 := by
    intro t
    rw [Nat.xor_mod_two_pow, and_f0]
    congr 1
    · omega
    · omega
  have e1 : (16 * (h.toNat % 2^28) + c.toNat) % 2^32 = (16 * h.toNat + c.toNat) % 2^32 := by omega
  have hc := c.isLt
  unfold hashStep elfStep
  simp only
  rw [e1]
  rcases hw with rfl | rfl
  · have ht : (16 * h + c.setWidth 32).toNat % 2^32 = (16 * h.toNat + c.toNat) % 2^32 := by
      simp only [BitVec.toNat_add, BitVec.toNat_mul, BitVec.toNat_setWidth]
      change ((16 % 2^32 * h.toNat) % 2^32 + c.toNat % 2^32) % 2^32 % 2^32 = _
      omega
    simp only [BitVec.toNat_xor, BitVec.toNat_and, BitVec.toNat_ushiftRight, Nat.shiftRight_eq_div_pow]
    rw [← ht]
    exact key _
  · have ht : (16 * h + c.setWidth 64).toNat % 2^32 = (16 * h.toNat + c.toNat) % 2^32 := by
      simp only [BitVec.toNat_add, BitVec.toNat_mul, BitVec.toNat_setWidth]
      change ((16 % 2^64 * h.toNat) % 2^64 + c.toNat % 2^64) % 2^64 % 2^32 = _
      omega
    simp only [BitVec.toNat_xor, BitVec.toNat_and, BitVec.toNat_ushiftRight, Nat.shiftRight_eq_div_pow]
    rw [← ht]
    exact key _

theorem elfStep_lt (h : Nat) (c : Byte) : elfStep h c < 2^28 := by
  unfold elfStep
  apply Nat.xor_lt_two_pow
  · omega
  · omega

theorem hash_foldl {w : Nat} (hw : w = 32 ∨ w = 64) (s : List Byte) : ∀ (h : BitVec w) (g : Nat), h.toNat % 2^28 = g →
    (s.foldl (hashStep w) h).toNat % 2^28 = s.foldl elfStep g := by
  induction s with
  | nil => intro h g e; exact e
  | cons c s ih =>
    intro h g e
    simp only [List.foldl_cons]
    exact ih _ _ (by rw [hashStep_spec hw, e])

theorem elf_lt (s : List Byte) : ∀ g, g < 2^28 → s.foldl elfStep g < 2^28 := by
  induction s with
  | nil => intro g e; exact e
  | cons c s ih => intro g _; exact ih _ (elfStep_lt g c)

theorem hash_spec {w : Nat} (hw : w = 32 ∨ w = 64) {p : SP} {s : List Byte} (hp : Holds p s) :
    hash w p = .ok (BitVec.ofNat 32 (elfHash s)) := by
  obtain ⟨j, rfl⟩ := holds_iff.1 hp
  unfold hash
  rw [rdN_prefix rfl]
  simp only [ok_bind, pure_eq_ok]
  congr 1
  apply BitVec.eq_of_toNat_eq
  have h1 := hash_foldl hw s 0 0 (by simp)
  rw [BitVec.toNat_setWidth, BitVec.toNat_and]
  have h2 : ∀ x : Nat, x &&& 0xfffffff = x % 2^28 := fun x => Nat.and_two_pow_sub_one_eq_mod x 28
  have h3 : (0xfffffff : BitVec w).toNat = 0xfffffff := by rcases hw with rfl | rfl <;> rfl
  rw [h3, h2, h1]
  simp [elfHash]

/-! ### Shifting -/

theorem shiftleft_spec {s t junk : List Byte} (h : t ≠ [] ∨ junk ≠ []) :
    shiftleft ⟨s ++ t ++ junk, (s ++ t).length⟩ t.length = .ok (⟨s ++ 0 :: (t ++ junk).tail, s.length⟩, 1) := by
  unfold shiftleft
  simp only
  rw [if_pos (by simp)]
  have e : (s ++ t).length - t.length = s.length := by simp
  rw [e]
  match t, junk, h with
  | x :: t, junk, _ => simp only [List.append_assoc, List.cons_append, wr_append, ok_bind, pure_eq_ok, List.tail_cons]
  | [], x :: junk, _ => simp only [List.append_nil, List.nil_append, wr_append, ok_bind, pure_eq_ok, List.tail_cons]
  | [], [], h => simp at h

theorem chompLoop_spec : ∀ (fuel : Nat) (s junk : List Byte) (res : Nat), s.length < fuel →
    ∃ t tail, s = t ++ tail ∧ (∀ c ∈ tail, islb c = true) ∧ (∀ c, t.getLast? = some c → islb c = false) ∧
      chompLoop fuel ⟨s ++ junk, s.length⟩ res =
        .ok (⟨t ++ List.replicate tail.length 0 ++ junk, t.length⟩, res + tail.length) := by
  intro fuel
  induction fuel with
  | zero => intro s junk res h; omega
  | succ fuel ih =>
    intro s junk res h
    unfold chompLoop
    rcases List.eq_nil_or_concat s with rfl | ⟨s, c, rfl⟩
    · exact ⟨[], [], by simp⟩
    · rw [List.concat_eq_append] at h ⊢
      simp only [List.length_append, List.length_cons, List.length_nil] at h ⊢
      rw [if_neg (by omega)]
      have e : rd (s ++ [c] ++ junk) (s.length + (0 + 1) - 1) = .ok c := by
        rw [List.append_assoc, rd_append_right (by omega)]; simp
      rw [e]
      simp only [ok_bindE]
      by_cases hc : islb c = true
      · rw [if_neg (by simp [hc])]
        have := shiftleft_spec (s := s) (t := [c]) (junk := junk) (Or.inl (by simp))
        simp only [List.length_append, List.length_cons, List.length_nil] at this
        rw [this]
        simp only [ok_bind]
        rw [if_neg (by decide)]
        obtain ⟨t, tail, h1, h2, h3, h4⟩ := ih s (0 :: junk) (res + 1) (by omega)
        refine ⟨t, tail ++ [c], by rw [h1]; simp, ?_, h3, ?_⟩
        · intro d hd
          simp only [List.mem_append, List.mem_singleton] at hd
          rcases hd with hd | rfl
          · exact h2 d hd
          · exact hc
        · have e2 : s ++ 0 :: ([c] ++ junk).tail = s ++ 0 :: junk := rfl
          rw [e2, h4]
          simp only [List.length_append, List.length_cons, List.length_nil, List.replicate_succ']
          congr 2
          · simp
          · omega
      · rw [if_pos (by simp [hc])]
        refine ⟨s ++ [c], [], by simp, by simp, ?_, by simp⟩
        intro d hd
        simp at hd
        subst hd
        simpa using hc

theorem rchrLoop_spec {s junk : List Byte} (needle : Int) : ∀ i, i ≤ s.length →
    ∃ r, rchrLoop ⟨s ++ junk, s.length⟩ needle i = .ok r ∧
      match r with
      | some k => ∃ h : k < s.length, s[k].toInt = needle ∧ k < i ∧ ∀ m (hm : m < s.length), k < m → m < i → s[m].toInt ≠ needle
      | none => ∀ m (hm : m < s.length), m < i → s[m].toInt ≠ needle := by
  intro i
  induction i with
  | zero => intro _; exact ⟨none, rfl, by intro m hm h; omega⟩
  | succ i ih =>
    intro hi
    unfold rchrLoop
    simp only
    rw [rd_append_left (by omega), rd_ok (by omega)]
    simp only [ok_bindE]
    split
    · rename_i h
      exact ⟨some i, rfl, by omega, h, by omega, by intro m hm h1 h2; omega⟩
    · rename_i h
      obtain ⟨r, hr, hs⟩ := ih (by omega)
      refine ⟨r, hr, ?_⟩
      split at hs
      · obtain ⟨h1, h2, h3, h4⟩ := hs
        refine ⟨h1, h2, by omega, fun m hm hk hlt => ?_⟩
        rcases Nat.eq_or_lt_of_le (Nat.le_of_lt_succ hlt) with rfl | hlt
        · exact h
        · exact h4 m hm hk hlt
      · intro m hm hlt
        rcases Nat.eq_or_lt_of_le (Nat.le_of_lt_succ hlt) with rfl | hlt
        · exact h
        · exact hs m hm hlt

/-! ### Fresh strings -/

theorem malloc_some {f : Nat → Byte} {n : Nat} : ∃ b, malloc (some f) n = some b ∧ b.length = n := by
  obtain ⟨j, h1, h2⟩ := realloc_some (f := f) (old := []) (n := n) (by simp)
  exact ⟨j, by simpa [malloc] using h1, by simpa using h2⟩

theorem new_spec {f : Nat → Byte} {n : Nat} (h : n + 17 < 2^64) :
    ∃ b, new (some f) n = .ok (some ⟨b ++ [0], n⟩) ∧ b.length = n := by
  obtain ⟨o, h1, h2⟩ := malloc_some (f := f) (n := szt (16 + n + 1))
  rw [szt_of_lt (by omega)] at h2
  unfold new
  rw [h1]
  simp only
  have hl : (o.drop 16).length = n + 1 := by simp [h2]; omega
  rcases List.eq_nil_or_concat (o.drop 16) with e | ⟨b, x, e⟩
  · rw [e] at hl; simp at hl
  · rw [List.concat_eq_append] at e
    rw [e] at hl ⊢
    simp only [List.length_append, List.length_cons, List.length_nil] at hl
    exact ⟨b, by rw [wr_append (by omega)]; rfl, by omega⟩

theorem memcpy_spec {A M B s junk : List Byte} {i n : Nat} (hi : i = A.length) (hn : n = s.length)
    (hm : M.length = s.length) : memcpy (A ++ M ++ B) i (s ++ junk) n = .ok (A ++ s ++ B) := by
  unfold memcpy
  rw [rdN_prefix hn]
  simp only [ok_bind]
  exact wrN_mid hi hm.symm

theorem copy_spec {f : Nat → Byte} {s junk : List Byte} (h : s.length + 17 < 2^64) :
    copy (some f) (some ⟨s ++ junk, s.length⟩) = .ok (some ⟨s ++ [0], s.length⟩) := by
  obtain ⟨b, h1, h2⟩ := new_spec (f := f) h
  unfold copy
  simp only
  rw [h1]
  simp only [ok_bind]
  have := memcpy_spec (A := []) (M := b) (B := [0]) (s := s) (junk := junk) (i := 0) rfl rfl h2
  simp only [List.nil_append] at this
  rw [this]
  rfl

theorem strdup_spec {f : Nat → Byte} {s junk : List Byte} (h : s.length + 1 < 2^64) :
    strdup (some f) (some ⟨s ++ junk, s.length⟩) = .ok (some (s ++ [0])) := by
  obtain ⟨o, h1, h2⟩ := malloc_some (f := f) (n := szt (s.length + 1))
  rw [szt_of_lt h] at h2
  unfold strdup
  simp only
  rw [h1]
  simp only
  rcases List.eq_nil_or_concat o with e | ⟨b, x, e⟩
  · rw [e] at h2; simp at h2
  · rw [List.concat_eq_append] at e
    rw [e] at h2 ⊢
    simp only [List.length_append, List.length_cons, List.length_nil] at h2
    have := memcpy_spec (A := []) (M := b) (B := [x]) (s := s) (junk := junk) (i := 0) rfl rfl (by omega)
    simp only [List.nil_append] at this
    rw [this]
    simp only [ok_bind]
    rw [wr_append rfl]
    rfl

theorem holdsAll_total {l : List SP} {ss : List (List Byte)} (h : HoldsAll l ss) :
    ∀ t, t + ss.flatten.length < 2^64 → l.foldl (fun t s => szt (t + s.size)) t = t + ss.flatten.length := by
  induction h with
  | nil => intro t _; simp
  | cons h1 h2 ih =>
    rename_i p s l ss
    intro t ht
    simp only [List.flatten_cons, List.length_append] at ht ⊢
    simp only [List.foldl_cons]
    rw [h1.1, szt_of_lt (by omega), ih _ (by omega)]
    omega

theorem concatLoop_spec {l : List SP} {ss : List (List Byte)} (h : HoldsAll l ss) :
    ∀ (A M B : List Byte) (pos : Nat), pos = A.length → M.length = ss.flatten.length →
      concatLoop (A ++ M ++ B) pos l = .ok (A ++ ss.flatten ++ B) := by
  induction h with
  | nil => intro A M B pos _ hm; simp at hm; simp [concatLoop, hm]
  | cons h1 h2 ih =>
    rename_i p s l ss
    intro A M B pos hp hm
    obtain ⟨j, rfl⟩ := holds_iff.1 h1
    simp only [List.flatten_cons, List.length_append] at hm
    unfold concatLoop
    simp only
    have e : A ++ M ++ B = A ++ M.take s.length ++ (M.drop s.length ++ B) := by
      rw [List.append_assoc A (M.take _), ← List.append_assoc (M.take _), List.take_append_drop]; simp
    rw [e, memcpy_spec hp rfl (by simp; omega)]
    simp only [ok_bind]
    rw [← List.append_assoc, ih (A ++ s) _ B _ (by simp [hp]) (by rw [List.length_drop]; omega)]
    simp

theorem concat_spec {f : Nat → Byte} {p : SP} {l : List SP} {s : List Byte} {ss : List (List Byte)} (hp : Holds p s)
    (hl : HoldsAll l ss) (h : (s :: ss).flatten.length + 17 < 2^64) :
    concat (some f) p l = .ok (some ⟨(s :: ss).flatten ++ [0], (s :: ss).flatten.length⟩) := by
  have ha := HoldsAll.cons hp hl
  unfold concat
  simp only
  rw [holdsAll_total ha 0 (by omega), Nat.zero_add]
  obtain ⟨b, h1, h2⟩ := new_spec (f := f) h
  rw [h1]
  simp only [ok_bind]
  have := concatLoop_spec ha [] b [0] 0 rfl h2
  simp only [List.nil_append] at this
  rw [this]
  rfl

end Ulz.Stringptr

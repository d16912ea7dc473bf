import Verif.Spec.Crc
import Verif.Proofs.Base
/-! Proofs about the CRC: linearity of the shift register. -/
namespace Ulz.Crc
open Spec

/-- Shifting the register by one bit without input. -/
def sh (p x : W32) : W32 := (x >>> 1) ^^^ (if x.getLsbD 0 then p else 0)

theorem sh_xor (p x y : W32) : sh p (x ^^^ y) = sh p x ^^^ sh p y := by
  unfold sh
  rw [BitVec.ushiftRight_xor_distrib, BitVec.getLsbD_xor]
  have hp : ∀ a b : W32, a ^^^ b = (a ^^^ p) ^^^ (b ^^^ p) := by
    intro a b
    rw [BitVec.xor_comm b p, BitVec.xor_assoc, ← BitVec.xor_assoc p, BitVec.xor_self, BitVec.zero_xor]
  cases x.getLsbD 0 <;> cases y.getLsbD 0
  · simp
  · simp; ac_rfl
  · simp; ac_rfl
  · simpa using hp (x >>> 1) (y >>> 1)

theorem sh_even {p x : W32} (h : x.getLsbD 0 = false) : sh p x = x >>> 1 := by
  unfold sh; rw [h]; simp

/-- The word with a single bit. -/
def bit1 (b : Bool) : W32 := if b then 1 else 0

theorem feed_eq (p s : W32) (b : Bool) : feed p s b = sh p (s ^^^ bit1 b) := by
  unfold feed sh
  rw [BitVec.ushiftRight_xor_distrib, BitVec.getLsbD_xor]
  cases b <;> cases h : s.getLsbD 0 <;> simp [bit1] <;> rfl

def shn (p : W32) : Nat → W32 → W32
  | 0, x => x
  | n + 1, x => shn p n (sh p x)

theorem shn_add (p : W32) : ∀ (m n : Nat) (x : W32), shn p (m + n) x = shn p n (shn p m x)
  | 0, n, x => by simp [shn]
  | m + 1, n, x => by rw [Nat.add_right_comm]; simp only [shn]; exact shn_add p m n _

theorem shn_xor (p : W32) : ∀ (n : Nat) (x y : W32), shn p n (x ^^^ y) = shn p n x ^^^ shn p n y
  | 0, _, _ => rfl
  | n + 1, x, y => by simp only [shn]; rw [sh_xor, shn_xor p n]

theorem shn_zero (p : W32) : ∀ n, shn p n 0 = 0
  | 0 => rfl
  | n + 1 => by simp only [shn]; rw [show sh p 0 = 0 by simp [sh]]; exact shn_zero p n

/-- Shifting out zero bits is a plain shift. -/
theorem shn_low {p : W32} : ∀ (n : Nat) {x : W32}, (∀ i < n, x.getLsbD i = false) → shn p n x = x >>> n
  | 0, x, _ => by simp [shn]
  | n + 1, x, h => by
    simp only [shn]
    rw [sh_even (h 0 (by omega)), shn_low n (x := x >>> 1), ← BitVec.shiftRight_add, Nat.add_comm]
    · intro i hi
      rw [BitVec.getLsbD_ushiftRight]
      exact h _ (by omega)

/-- The word whose low bits are the given bits. -/
def word : List Bool → W32
  | [] => 0
  | b :: bs => bit1 b ^^^ (word bs <<< 1)

theorem sh_shl {p x : W32} (h : x.getLsbD 31 = false) : sh p (x <<< 1) = x := by
  rw [sh_even (by simp)]
  apply BitVec.eq_of_getLsbD_eq
  intro i hi
  rw [BitVec.getLsbD_ushiftRight, BitVec.getLsbD_shiftLeft]
  by_cases h31 : i = 31
  · subst h31; rw [h]; simp
  · simp; omega

theorem word_high : ∀ (bs : List Bool) (i : Nat), bs.length ≤ i → (word bs).getLsbD i = false
  | [], i, _ => by simp [word]
  | b :: bs, i, h => by
    simp only [List.length_cons] at h
    unfold word
    rw [BitVec.getLsbD_xor, BitVec.getLsbD_shiftLeft, word_high bs (i - 1) (by omega)]
    have : (bit1 b).getLsbD i = false := by
      unfold bit1; cases b
      · simp
      · simp; omega
    simp [this]

/-- Feeding at most 32 bits is xoring them in and shifting. -/
theorem feed_word (p : W32) : ∀ (bs : List Bool) (s : W32), bs.length ≤ 32 →
    bs.foldl (feed p) s = shn p bs.length (s ^^^ word bs)
  | [], s, _ => by simp [shn, word]
  | b :: bs, s, h => by
    simp only [List.length_cons] at h
    simp only [List.foldl_cons, List.length_cons, shn, word]
    rw [feed_word p bs _ (by omega), feed_eq, ← BitVec.xor_assoc, sh_xor p (s ^^^ bit1 b) (word bs <<< 1),
      sh_shl (word_high bs 31 (by omega))]

theorem feed_zeros (p : W32) : ∀ (bs : List Bool) (s t : W32),
    bs.foldl (feed p) s ^^^ bs.foldl (feed p) t = shn p bs.length (s ^^^ t)
  | [], s, t => rfl
  | b :: bs, s, t => by
    simp only [List.foldl_cons, List.length_cons, shn]
    rw [feed_zeros p bs, feed_eq, feed_eq, ← sh_xor]
    congr 2
    rw [BitVec.xor_assoc, BitVec.xor_comm (bit1 b), BitVec.xor_assoc, BitVec.xor_self, BitVec.xor_zero]

/-! ### Injectivity -/

theorem sh_inj_zero {p x : W32} (hp : p.getLsbD 31 = true) (h : sh p x = 0) : x = 0 := by
  have h31 : (sh p x).getLsbD 31 = x.getLsbD 0 := by
    unfold sh
    rw [BitVec.getLsbD_xor, BitVec.getLsbD_ushiftRight]
    cases x.getLsbD 0 <;> simp [hp]
  rw [h] at h31
  have h0 : x.getLsbD 0 = false := by rw [← h31]; simp
  rw [sh_even h0] at h
  apply BitVec.eq_of_getLsbD_eq
  intro i hi
  cases i with
  | zero => rw [h0]; simp
  | succ i =>
    have := congrArg (fun y => BitVec.getLsbD y i) h
    simp only [BitVec.getLsbD_ushiftRight] at this
    rw [Nat.add_comm, this]
    simp

theorem shn_inj_zero {p : W32} (hp : p.getLsbD 31 = true) : ∀ (n : Nat) {x : W32}, shn p n x = 0 → x = 0
  | 0, _, h => h
  | n + 1, _, h => sh_inj_zero hp (shn_inj_zero hp n h)

theorem word_inj : ∀ (a b : List Bool), a.length = b.length → a.length ≤ 32 → word a = word b → a = b
  | [], [], _, _, _ => rfl
  | x :: a, y :: b, hl, h32, h => by
    simp only [List.length_cons] at hl h32
    have bit : ∀ (c : Bool) (cs : List Bool), (word (c :: cs)).getLsbD 0 = c := by
      intro c cs
      unfold word
      rw [BitVec.getLsbD_xor, BitVec.getLsbD_shiftLeft]
      cases c <;> simp [bit1]
    have rest : ∀ (c : Bool) (cs : List Bool), cs.length ≤ 31 → (word (c :: cs)) >>> 1 = word cs := by
      intro c cs hc
      rw [word, BitVec.ushiftRight_xor_distrib]
      have h1 : bit1 c >>> 1 = 0 := by cases c <;> rfl
      have h2 := sh_shl (p := 0) (word_high cs 31 (by omega))
      rw [sh_even (by simp)] at h2
      rw [h1, h2]; simp
    have h1 : x = y := by rw [← bit x a, h, bit y b]
    have h2 : word a = word b := by rw [← rest x a (by omega), h, rest y b (by omega)]
    rw [h1, word_inj a b (by omega) (by omega) h2]

/-! ### The tables -/

theorem tables_crc32 : ∀ j < 4, ∀ i < 256, ((tables polyCrc32)[j]?.bind (·[i]?)) =
    some (shn revCrc32 (8 * (j + 1)) (BitVec.ofNat 32 i)) := by decide +kernel

theorem tables_crc32c : ∀ j < 4, ∀ i < 256, ((tables polyCrc32c)[j]?.bind (·[i]?)) =
    some (shn revCrc32c (8 * (j + 1)) (BitVec.ofNat 32 i)) := by decide +kernel

/-- A set of tables for the reversed polynomial `p`. -/
def Tab (T : List (List W32)) (p : W32) : Prop :=
  ∀ j < 4, ∀ i < 256, (T[j]?.bind (·[i]?)) = some (shn p (8 * (j + 1)) (BitVec.ofNat 32 i))

theorem look_spec {T : List (List W32)} {p : W32} (h : Tab T p) {j : Nat} (hj : j < 4) {i : W32} (hi : i.toNat < 256) :
    look (some T) j i = .ok (shn p (8 * (j + 1)) i) := by
  have := h j hj i.toNat hi
  unfold look
  simp only
  cases e : T[j]? with
  | none => rw [e] at this; simp at this
  | some t =>
    rw [e] at this
    simp only [Option.bind_some] at this
    simp only [this]
    simp

theorem low_lt (x : W32) (b : Byte) : ((x &&& 0xff) ^^^ b.setWidth 32).toNat < 256 := by
  rw [BitVec.toNat_xor, BitVec.toNat_and, BitVec.toNat_setWidth]
  apply Nat.xor_lt_two_pow (n := 8)
  · exact Nat.lt_of_le_of_lt Nat.and_le_right (by decide)
  · have := b.isLt; omega

/-- Splitting off the low byte. -/
theorem split_low (s : W32) : s = (s &&& (0xff : W32)) ^^^ ((s >>> 8) <<< 8) := by
  apply BitVec.eq_of_getLsbD_eq
  intro i hi
  have h : ∀ i < 32, (0xff : W32).getLsbD i = decide (i < 8) := by decide
  rw [BitVec.getLsbD_xor, BitVec.getLsbD_and, BitVec.getLsbD_shiftLeft, BitVec.getLsbD_ushiftRight, h i hi]
  by_cases h8 : i < 8
  · simp [h8]
  · simp [h8, show 8 + (i - 8) = i by omega, hi]

theorem shn8_shl {p : W32} (y : W32) (h : ∀ i, 24 ≤ i → y.getLsbD i = false) : shn p 8 (y <<< 8) = y := by
  rw [shn_low 8 (by intro i hi; simp; omega)]
  apply BitVec.eq_of_getLsbD_eq
  intro i hi
  rw [BitVec.getLsbD_ushiftRight, BitVec.getLsbD_shiftLeft]
  by_cases h24 : 24 ≤ i
  · rw [h i h24]; simp; omega
  · simp; omega

theorem shr8_high (s : W32) : ∀ i, 24 ≤ i → (s >>> 8).getLsbD i = false := by
  intro i hi
  rw [BitVec.getLsbD_ushiftRight]
  exact BitVec.getLsbD_of_ge _ _ (by omega)

/-- The effect of eight shifts. -/
theorem shn8 (p s : W32) : shn p 8 s = shn p 8 (s &&& 0xff) ^^^ (s >>> 8) := by
  conv => lhs; rw [split_low s]
  rw [shn_xor, shn8_shl _ (shr8_high s)]

/-- The specification of one byte. -/
def byteS (p s : W32) (b : Byte) : W32 := shn p 8 (s ^^^ b.setWidth 32)

theorem bits8 (b : Byte) : word ((List.range 8).map fun i => b.getLsbD i) = b.setWidth 32 := by
  have : ∀ b : Byte, word ((List.range 8).map fun i => b.getLsbD i) = b.setWidth 32 := by decide +kernel
  exact this b

theorem feed_byte (p s : W32) (b : Byte) : ((List.range 8).map fun i => b.getLsbD i).foldl (feed p) s = byteS p s b := by
  rw [feed_word p _ s (by simp), bits8]
  simp [byteS]

theorem feed_bits (p : W32) : ∀ (m : List Byte) (s : W32), (bits m).foldl (feed p) s = m.foldl (byteS p) s
  | [], _ => rfl
  | b :: m, s => by
    unfold bits
    rw [List.flatMap_cons, List.foldl_append, feed_byte]
    exact feed_bits p m _

theorem byte_spec {T : List (List W32)} {p : W32} (h : Tab T p) (s : W32) (b : Byte) :
    byte (some T) s b = .ok (byteS p s b) := by
  unfold byte
  rw [look_spec h (by omega) (low_lt s b)]
  simp only [ok_bind, pure_eq_ok]
  congr 1
  unfold byteS
  rw [shn_xor p 8 s, shn_xor p (8 * (0 + 1)), shn8 p s]
  have : ∀ a b c : W32, a ^^^ (b ^^^ c) = b ^^^ a ^^^ c := by intro a b c; ac_rfl
  exact this _ _ _

theorem block_spec {T : List (List W32)} {p : W32} (h : Tab T p) (s : W32) (b0 b1 b2 b3 : Byte) :
    block (some T) s b0 b1 b2 b3 = .ok (byteS p (byteS p (byteS p (byteS p s b0) b1) b2) b3) := by
  unfold block
  rw [look_spec h (by omega) (low_lt _ b3), look_spec h (by omega) (low_lt _ b2), look_spec h (by omega) (low_lt _ b1),
    look_spec h (by omega) (low_lt s b0)]
  simp only [ok_bind, pure_eq_ok]
  congr 1
  unfold byteS
  simp only [shn_xor]
  have e : ∀ m n x, shn p n (shn p m x) = shn p (m + n) x := fun m n x => (shn_add p m n x).symm
  simp only [e, Nat.reduceAdd, Nat.reduceMul]
  -- the state, byte by byte
  have hs : shn p 32 s = shn p 32 (s &&& 0xff) ^^^ shn p 24 ((s >>> 8) &&& 0xff) ^^^ shn p 16 ((s >>> 16) &&& 0xff) ^^^
      shn p 8 ((s >>> 24) &&& 0xff) := by
    have step : ∀ n x, shn p (8 + n) x = shn p (8 + n) (x &&& 0xff) ^^^ shn p n (x >>> 8) := by
      intro n x
      rw [shn_add p 8 n x, shn8 p x, shn_xor, ← shn_add]
    have z : s >>> 24 >>> 8 = 0 := by
      apply BitVec.eq_of_getLsbD_eq
      intro i hi
      simp
    have s1 := step 24 s
    have s2 := step 16 (s >>> 8)
    have s3 := step 8 (s >>> 16)
    have s4 := step 0 (s >>> 24)
    simp only [← BitVec.shiftRight_add, Nat.add_zero, Nat.reduceAdd, show ∀ x, shn p 0 x = x from fun _ => rfl] at s1 s2 s3 s4
    rw [s1, s2, s3, s4, show s >>> 32 = 0 from by simpa [← BitVec.shiftRight_add] using z]
    rw [show shn p 8 (s >>> 24 &&& 255) ^^^ (0 : W32) = shn p 8 (s >>> 24 &&& 255) from BitVec.xor_zero]
    ac_rfl
  rw [hs]
  ac_rfl

theorem update_spec {T : List (List W32)} {p : W32} (h : Tab T p) : ∀ (m : List Byte) (s : W32),
    update (some T) s m = .ok (m.foldl (byteS p) s)
  | b0 :: b1 :: b2 :: b3 :: rest, s => by
    unfold update
    rw [block_spec h]
    simp only [ok_bind, List.foldl_cons]
    exact update_spec h rest _
  | [], s => rfl
  | [a], s => by
    unfold update; rw [byte_spec h]; rfl
  | [a, b], s => by
    unfold update; rw [byte_spec h]; simp only [ok_bind]; unfold update; rw [byte_spec h]; rfl
  | [a, b, c], s => by
    unfold update; rw [byte_spec h]; simp only [ok_bind]; unfold update; rw [byte_spec h]; simp only [ok_bind]
    unfold update; rw [byte_spec h]; rfl

theorem updates_spec {T : List (List W32)} {p : W32} (h : Tab T p) : ∀ (cs : List (List Byte)) (s : W32),
    updates (some T) s cs = .ok (cs.flatten.foldl (byteS p) s)
  | [], _ => rfl
  | c :: cs, s => by
    unfold updates
    rw [update_spec h]
    simp only [ok_bind]
    rw [updates_spec h cs]
    simp

theorem final_spec (s : W32) : final s = (~~~ s, le32 (~~~ s)) := by
  have h : ∀ (x : W32) (k : Nat), ((x >>> k) &&& 0xff).setWidth 8 = x.extractLsb' k 8 := by
    intro x k
    apply BitVec.eq_of_getLsbD_eq
    intro i hi
    have hf : ∀ i < 32, (0xff : W32).getLsbD i = decide (i < 8) := by decide
    rw [BitVec.getLsbD_setWidth, BitVec.getLsbD_and, BitVec.getLsbD_ushiftRight, hf i (by omega), BitVec.getLsbD_extractLsb']
    simp [hi]
  have h0 := h (s ^^^ 0xffffffff) 0
  simp only [BitVec.ushiftRight_zero] at h0
  unfold final le32
  simp only [h0, h]
  have : s ^^^ 0xffffffff = ~~~ s := by
    have := BitVec.xor_allOnes (x := s)
    exact this
  rw [this]

theorem run_spec {T : List (List W32)} {p : W32} (h : Tab T p) (cs : List (List Byte)) :
    run (some T) cs = .ok (le32 (crc p cs.flatten)) := by
  unfold run
  rw [updates_spec h]
  simp only [ok_bind, pure_eq_ok, final_spec]
  unfold crc
  rw [feed_bits]
  rfl

/-! ### Bursts and the residue -/

theorem burst {p : W32} (hp : p.getLsbD 31 = true) {A B u v : List Bool} (s : W32) (hl : u.length = v.length)
    (h32 : u.length ≤ 32) (hne : u ≠ v) : (A ++ u ++ B).foldl (feed p) s ≠ (A ++ v ++ B).foldl (feed p) s := by
  intro h
  simp only [List.foldl_append] at h
  generalize List.foldl (feed p) s A = t at h
  have h1 := feed_zeros p B (u.foldl (feed p) t) (v.foldl (feed p) t)
  rw [h, BitVec.xor_self] at h1
  have h2 := shn_inj_zero hp _ h1.symm
  rw [feed_word p u t h32, feed_word p v t (by omega), hl, ← shn_xor] at h2
  have h3 := shn_inj_zero hp _ h2
  have h4 : word u ^^^ word v = 0 := by
    rw [← h3, BitVec.xor_assoc, ← BitVec.xor_assoc (word u), BitVec.xor_comm (word u) t, BitVec.xor_assoc t,
      ← BitVec.xor_assoc t t, BitVec.xor_self, BitVec.zero_xor]
  exact hne (word_inj u v hl h32 (BitVec.xor_eq_zero_iff.1 h4))

theorem word_le32 (s : W32) : word (bits (le32 s)) = s := by
  apply BitVec.eq_of_getLsbD_eq
  have key : ∀ (bs : List Bool) (i : Nat), i < 32 → (word bs).getLsbD i = bs.getD i false := by
    intro bs
    induction bs with
    | nil => intro i _; simp [word]
    | cons b bs ih =>
      intro i hi
      unfold word
      rw [BitVec.getLsbD_xor, BitVec.getLsbD_shiftLeft]
      cases i with
      | zero => cases b <;> simp [bit1]
      | succ i =>
        rw [Nat.add_sub_cancel, ih i (by omega)]
        have : (bit1 b).getLsbD (i + 1) = false := by
          unfold bit1; cases b <;> simp
        rw [this]
        simp [hi]
  intro i hi
  rw [key _ i hi]
  have hb : bits (le32 s) = (List.range 32).map fun i => s.getLsbD i := by
    have h : ∀ k, ((List.range 8).map fun i => (s.extractLsb' k 8).getLsbD i) = (List.range 8).map fun i => s.getLsbD (k + i) := by
      intro k
      apply List.map_congr_left
      intro i hi
      simp at hi
      rw [BitVec.getLsbD_extractLsb']
      simp [hi]
    simp only [bits, le32, List.flatMap_cons, List.flatMap_nil, h]
    rfl
  rw [hb]
  simp [List.getD, hi]

theorem bits_append (a b : List Byte) : bits (a ++ b) = bits a ++ bits b := List.flatMap_append

theorem bits_length (m : List Byte) : (bits m).length = 8 * m.length := by
  induction m with
  | nil => rfl
  | cons b m ih =>
    unfold bits at ih ⊢
    rw [List.flatMap_cons, List.length_append, ih]
    simp; omega

theorem residue (p : W32) (m : List Byte) : crc p (m ++ le32 (crc p m)) = ~~~ shn p 32 0xffffffff := by
  unfold crc
  rw [bits_append, List.foldl_append]
  generalize List.foldl (feed p) 0xffffffff (bits m) = t
  have hl : (bits (le32 (~~~ t))).length = 32 := by rw [bits_length]; rfl
  rw [feed_word p _ t (by omega), hl, word_le32]
  congr 2
  have h1 := BitVec.xor_allOnes (x := t)
  rw [← h1, ← BitVec.xor_assoc, BitVec.xor_self, BitVec.zero_xor]
  rfl

end Ulz.Crc

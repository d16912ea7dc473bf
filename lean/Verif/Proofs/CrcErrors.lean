import Verif.Proofs.Crc
import Mathlib.Data.Nat.Prime.Basic
import Mathlib.Tactic.NormNum.Prime
import Mathlib.NumberTheory.LucasLehmer
/-! The period of the shift registers, for double errors. -/
namespace Ulz.Crc
open Spec

/-- The register holding the polynomial 1. -/
def top : W32 := 0x80000000

/-- The product of the polynomials in two registers. -/
def op (p : W32) : Nat → W32 → W32 → W32
  | 0, _, _ => 0
  | n + 1, v, w => (if v.getLsbD n then w else 0) ^^^ op p n v (sh p w)

theorem shn_succ (p : W32) (n : Nat) (x : W32) : shn p (n + 1) x = sh p (shn p n x) := by
  rw [shn_add]; rfl

theorem op_xor (p : W32) : ∀ (n : Nat) (v x y : W32), op p n v (x ^^^ y) = op p n v x ^^^ op p n v y
  | 0, _, _, _ => by simp [op]
  | n + 1, v, x, y => by
    simp only [op]
    rw [sh_xor, op_xor p n]
    cases v.getLsbD n
    · simp
    · simp only [if_true]; ac_rfl

theorem op_zero (p : W32) (n : Nat) (v : W32) : op p n v 0 = 0 := by
  have := op_xor p n v 0 0
  rw [BitVec.xor_self, BitVec.xor_self] at this
  exact this

theorem op_sh (p : W32) : ∀ (n : Nat) (v x : W32), op p n v (sh p x) = sh p (op p n v x)
  | 0, _, _ => by simp [op, sh]
  | n + 1, v, x => by
    simp only [op]
    rw [sh_xor, op_sh p n]
    cases v.getLsbD n
    · simp [sh]
    · rfl

theorem op_shn (p : W32) (n : Nat) (v : W32) : ∀ (k : Nat) (x : W32), op p n v (shn p k x) = shn p k (op p n v x)
  | 0, _ => rfl
  | k + 1, x => by simp only [shn]; rw [op_shn p n v k, op_sh]

theorem op_comm_aux (p : W32) (m : Nat) (v : W32) : ∀ (n : Nat) (w x : W32), op p m v (op p n w x) = op p n w (op p m v x)
  | 0, _, _ => op_zero p m v
  | n + 1, w, x => by
    simp only [op]
    rw [op_xor, op_comm_aux p m v n, op_sh]
    cases w.getLsbD n
    · simp only [Bool.false_eq_true, if_false, op_zero]
    · rfl

theorem shn_top (p : W32) : ∀ n, n ≤ 31 → shn p n top = top >>> n := by
  intro n hn
  apply shn_low
  intro i hi
  have : ∀ i < 31, top.getLsbD i = false := by decide
  exact this i (by omega)

theorem op_top_aux (p v : W32) : ∀ n, n ≤ 32 → ∀ i < 32, (op p n v (shn p (32 - n) top)).getLsbD i = (decide (i < n) && v.getLsbD i)
  | 0, _, i, _ => by simp [op]
  | n + 1, hn, i, hi => by
    simp only [op]
    rw [BitVec.getLsbD_xor, ← shn_succ, show 32 - (n + 1) + 1 = 32 - n by omega, op_top_aux p v n (by omega) i hi, shn_top p _ (by omega)]
    have e : ∀ a < 32, ∀ i < 32, (top >>> (31 - a)).getLsbD i = decide (i = a) := by decide +kernel
    have h1 : (if v.getLsbD n then top >>> (32 - (n + 1)) else 0).getLsbD i = (decide (i = n) && v.getLsbD n) := by
      cases v.getLsbD n
      · simp
      · simp only [if_true, Bool.and_true]
        rw [show 32 - (n + 1) = 31 - n by omega, e n (by omega) i hi]
    rw [h1]
    by_cases h : i = n
    · subst h; simp
    · by_cases h2 : i < n
      · simp [h, h2, show i < n + 1 by omega]
      · simp [h, h2, show ¬ i < n + 1 by omega]

theorem op_top (p v : W32) : op p 32 v top = v := by
  apply BitVec.eq_of_getLsbD_eq
  intro i hi
  have := op_top_aux p v 32 (by omega) i hi
  rw [Nat.sub_self] at this
  simpa [hi, shn] using this

theorem shn_mul (p : W32) (j k : Nat) : shn p (j + k) top = op p 32 (shn p k top) (shn p j top) := by
  rw [shn_add]
  have h : op p 32 (shn p j top) top = shn p j top := op_top p _
  rw [← h, ← op_shn, op_top]
  conv => lhs; rw [← op_top p (shn p k top)]
  rw [op_comm_aux, op_top]

/-- A computation of a power of x by squaring: bit of the exponent, result. -/
def chk (p : W32) (s : W32) : List (Bool × W32) → Bool
  | [] => true
  | (b, t) :: r => (t == (if b then sh p (op p 32 s s) else op p 32 s s)) && chk p t r

def lastOf (s : W32) : List (Bool × W32) → W32
  | [] => s
  | (_, t) :: r => lastOf t r

def expOf (k : Nat) : List (Bool × W32) → Nat
  | [] => k
  | (b, _) :: r => expOf (2 * k + if b then 1 else 0) r

theorem chk_spec (p : W32) : ∀ (l : List (Bool × W32)) (s : W32) (k : Nat), s = shn p k top → chk p s l = true → shn p (expOf k l) top = lastOf s l
  | [], s, k, h, _ => h.symm
  | (b, t) :: r, s, k, h, hc => by
    simp only [chk, Bool.and_eq_true, beq_iff_eq] at hc
    simp only [expOf, lastOf]
    refine chk_spec p r t _ ?_ hc.2
    rw [hc.1]
    cases b
    · simp only [Bool.false_eq_true, if_false, Nat.add_zero]
      rw [Nat.two_mul, shn_mul, ← h]
    · simp only [if_true]
      rw [Nat.two_mul, shn_succ, shn_mul, ← h]

def full32 : List (Bool × W32) := [(true, 0x40000000), (true, 0x10000000), (true, 0x01000000), (true, 0x00010000), (true, 0x00000001), (true, 0xb8bc6765), (true, 0x9ba54c6f), (true, 0x01b5fd1d), (true, 0xcad38e8f), (true, 0x7406fa95), (true, 0x03f9f863), (true, 0xc78c44a1), (true, 0xc84f001c), (true, 0x9a8f75c0), (true, 0x13fca91e), (true, 0xdc7b5c5f), (true, 0x606c5e34), (true, 0xf6b53986), (true, 0x63fd82d2), (true, 0xe4a90215), (true, 0xd91bdb88), (true, 0x2bad0e9a), (true, 0xbfbcf49c), (true, 0xaec31a2f), (true, 0x5c9cbdde), (true, 0x9d574428), (true, 0x8a39e3c1), (true, 0x85352d3c), (true, 0x291a6054), (true, 0x53664be1), (true, 0x52b55e39), (true, 0x80000000)]
def part32_3 : List (Bool × W32) := [(true, 0x40000000), (false, 0x20000000), (true, 0x04000000), (false, 0x00200000), (true, 0x00000400), (false, 0x958424a2), (true, 0xf44f2413), (false, 0x5d46b830), (true, 0xe15528e5), (false, 0x400a5936), (true, 0x4a625cd1), (false, 0x2b1a9480), (true, 0x3fc6efd3), (false, 0x330eb6fb), (true, 0xeba0264a), (false, 0xebac76ac), (true, 0xaba85d50), (false, 0xfa128581), (true, 0xb8678921), (false, 0xca97c8f0), (true, 0xa121b3bf), (false, 0xb1f4ed81), (true, 0x4281464d), (false, 0x9914990e), (true, 0xed9796a7), (false, 0xd6e0cbee), (true, 0x98aba02d), (false, 0x889203ae), (true, 0x0ecb08a8), (false, 0x3954c4c2), (true, 0xc736eb52)]
def part32_5 : List (Bool × W32) := [(true, 0x40000000), (true, 0x10000000), (false, 0x02000000), (false, 0x00080000), (true, 0x00000040), (true, 0x1c26a370), (false, 0x2ef62886), (false, 0xb9432600), (true, 0x6c820349), (true, 0x56a92869), (false, 0x667ef113), (false, 0x402436d6), (true, 0xfcc1a385), (true, 0xc1a99cf7), (false, 0x16d3418b), (false, 0x68a1ad9f), (true, 0x4bdab5fa), (true, 0x3b2be47a), (false, 0x5a345a10), (false, 0x07368de9), (true, 0x9d7491a5), (true, 0xc6a740b1), (false, 0xddedfe3f), (false, 0xdd3ea802), (true, 0x5ffb588f), (true, 0x07d548e2), (false, 0x12183e96), (false, 0x03349540), (true, 0x4e21f476), (true, 0x84011278)]
def part32_17 : List (Bool × W32) := [(true, 0x40000000), (true, 0x10000000), (true, 0x01000000), (true, 0x00010000), (false, 0x00000002), (false, 0xc5b428ef), (false, 0x60c76fe0), (false, 0x9e36506b), (true, 0x9c018645), (true, 0xeda1054e), (true, 0x5fc15c94), (true, 0xe01f9dcf), (false, 0xcc299acc), (false, 0xc45fbca8), (false, 0x0135087e), (false, 0x868460b5), (true, 0xc43aebbc), (true, 0x0c446b60), (true, 0x8cab7481), (true, 0xaf69585a), (false, 0x756dfd77), (false, 0x7a453053), (false, 0x9e29bbd6), (false, 0xf1d31ca2), (true, 0x604c8e8c), (true, 0x079c4bf2), (true, 0x75b99178), (true, 0x8c283ca0)]
def part32_257 : List (Bool × W32) := [(true, 0x40000000), (true, 0x10000000), (true, 0x01000000), (true, 0x00010000), (true, 0x00000001), (true, 0xb8bc6765), (true, 0x9ba54c6f), (true, 0x01b5fd1d), (false, 0x4ed61b5f), (false, 0x16d5d82a), (false, 0x278d37c1), (false, 0xf4e5307f), (false, 0x5df97b6b), (false, 0x8ccf5292), (false, 0xba1c8c47), (false, 0x3ef534d3), (true, 0x655c077a), (true, 0x2d3f59b5), (true, 0x19772432), (true, 0xc54796e1), (true, 0xac6d574f), (true, 0xf9a08e57), (true, 0x8769f32a), (true, 0x351c22c9)]
def part32_65537 : List (Bool × W32) := [(true, 0x40000000), (true, 0x10000000), (true, 0x01000000), (true, 0x00010000), (true, 0x00000001), (true, 0xb8bc6765), (true, 0x9ba54c6f), (true, 0x01b5fd1d), (true, 0xcad38e8f), (true, 0x7406fa95), (true, 0x03f9f863), (true, 0xc78c44a1), (true, 0xc84f001c), (true, 0x9a8f75c0), (true, 0x13fca91e), (true, 0xdc7b5c5f)]
def full32c : List (Bool × W32) := [(true, 0x40000000), (true, 0x10000000), (true, 0x01000000), (true, 0x00010000), (true, 0x00000001), (true, 0xdd45aab8), (true, 0x3171d430), (true, 0xa2158b34), (true, 0x75bba45b), (true, 0x7417153f), (true, 0x1426a815), (true, 0xe986c148), (true, 0xcdc220dd), (true, 0x1acaec54), (true, 0x6bae74c4), (true, 0x508c2ac8), (true, 0x7b66d223), (true, 0xc0381349), (true, 0xf902f73d), (true, 0xf760b4e7), (true, 0x78409f1e), (true, 0xa70b0dc6), (true, 0xb2e4d22a), (true, 0xe69aa612), (true, 0x7dd9f837), (true, 0xfa0e4598), (true, 0xa0ffe38d), (true, 0xd7752589), (true, 0x0b6e9e7e), (true, 0x4fd04875), (true, 0x80000000)]

theorem full32_ok : shn revCrc32 4294967295 top = top :=
  chk_spec revCrc32 full32 top 0 rfl (by decide +kernel)
theorem part32_3_ok : shn revCrc32 1431655765 top ≠ top := by
  rw [show (1431655765 : Nat) = expOf 0 part32_3 by decide +kernel, chk_spec revCrc32 part32_3 top 0 rfl (by decide +kernel)]; decide
theorem part32_5_ok : shn revCrc32 858993459 top ≠ top := by
  rw [show (858993459 : Nat) = expOf 0 part32_5 by decide +kernel, chk_spec revCrc32 part32_5 top 0 rfl (by decide +kernel)]; decide
theorem part32_17_ok : shn revCrc32 252645135 top ≠ top := by
  rw [show (252645135 : Nat) = expOf 0 part32_17 by decide +kernel, chk_spec revCrc32 part32_17 top 0 rfl (by decide +kernel)]; decide
theorem part32_257_ok : shn revCrc32 16711935 top ≠ top := by
  rw [show (16711935 : Nat) = expOf 0 part32_257 by decide +kernel, chk_spec revCrc32 part32_257 top 0 rfl (by decide +kernel)]; decide
theorem part32_65537_ok : shn revCrc32 65535 top ≠ top := by
  rw [show (65535 : Nat) = expOf 0 part32_65537 by decide +kernel, chk_spec revCrc32 part32_65537 top 0 rfl (by decide +kernel)]; decide
theorem full32c_ok : shn revCrc32c 2147483647 top = top :=
  chk_spec revCrc32c full32c top 0 rfl (by decide +kernel)

/-! ### Periods -/

theorem shn_inj {p : W32} (hp : p.getLsbD 31 = true) (n : Nat) {x y : W32} (h : shn p n x = shn p n y) : x = y := by
  have : shn p n (x ^^^ y) = 0 := by rw [shn_xor, h, BitVec.xor_self]; rfl
  exact BitVec.xor_eq_zero_iff.1 (shn_inj_zero hp n this)

theorem period_mul (p : W32) (a : Nat) (h : shn p a top = top) : ∀ k, shn p (a * k) top = top
  | 0 => rfl
  | k + 1 => by rw [Nat.mul_succ, shn_add, period_mul p a h k, h]

theorem period_mod {p : W32} (a b : Nat) (ha : shn p a top = top) (hb : shn p b top = top) : shn p (a % b) top = top := by
  have h := Nat.div_add_mod a b
  rw [← h, shn_add, period_mul p b hb] at ha
  exact ha

theorem period_gcd {p : W32} (a b : Nat) (ha : shn p a top = top) (hb : shn p b top = top) : shn p (Nat.gcd a b) top = top := by
  induction a, b using Nat.gcd.induction with
  | H0 b => rw [Nat.gcd_zero_left]; exact hb
  | H1 a b _ ih =>
    rw [Nat.gcd_rec]
    exact ih (period_mod _ _ hb ha) ha

theorem period_of {p : W32} (N d : Nat) (h : shn p N top = top)
    (hq : ∀ q, q.Prime → q ∣ N → shn p (N / q) top ≠ top) : shn p d top = top ↔ N ∣ d := by
  constructor
  · intro hd
    have hg := period_gcd d N hd h
    by_cases hgN : Nat.gcd d N = N
    · rw [← hgN]; exact Nat.gcd_dvd_left d N
    · exfalso
      obtain ⟨c, hc⟩ := Nat.gcd_dvd_right d N
      have hc1 : c ≠ 1 := fun e => hgN (by rw [e, Nat.mul_one] at hc; exact hc.symm)
      obtain ⟨q, hqp, hqc⟩ := Nat.exists_prime_and_dvd hc1
      obtain ⟨e, he⟩ := hqc
      have hqN : N = q * (Nat.gcd d N * e) := by
        conv => lhs; rw [hc, he]
        rw [Nat.mul_left_comm]
      refine hq q hqp ⟨_, hqN⟩ ?_
      have : N / q = Nat.gcd d N * e := by
        conv => lhs; rw [hqN]
        exact Nat.mul_div_cancel_left _ hqp.pos
      rw [this]
      exact period_mul p _ hg e
  · rintro ⟨k, rfl⟩
    exact period_mul p N h k

theorem period32 (d : Nat) : shn revCrc32 d top = top ↔ 4294967295 ∣ d := by
  refine period_of _ d full32_ok ?_
  intro q hq hd
  rw [show 4294967295 = 3 * 5 * 17 * 257 * 65537 by norm_num] at hd
  have h3 : Nat.Prime 3 := by norm_num
  have h5 : Nat.Prime 5 := by norm_num
  have h17 : Nat.Prime 17 := by norm_num
  have h257 : Nat.Prime 257 := by norm_num
  have h65537 : Nat.Prime 65537 := by norm_num
  rcases (Nat.Prime.dvd_mul hq).1 hd with hd | hd
  · rcases (Nat.Prime.dvd_mul hq).1 hd with hd | hd
    · rcases (Nat.Prime.dvd_mul hq).1 hd with hd | hd
      · rcases (Nat.Prime.dvd_mul hq).1 hd with hd | hd
        · rw [(Nat.prime_dvd_prime_iff_eq hq h3).1 hd]; exact part32_3_ok
        · rw [(Nat.prime_dvd_prime_iff_eq hq h5).1 hd]; exact part32_5_ok
      · rw [(Nat.prime_dvd_prime_iff_eq hq h17).1 hd]; exact part32_17_ok
    · rw [(Nat.prime_dvd_prime_iff_eq hq h257).1 hd]; exact part32_257_ok
  · rw [(Nat.prime_dvd_prime_iff_eq hq h65537).1 hd]; exact part32_65537_ok

theorem period32c (d : Nat) : shn revCrc32c d top = top ↔ 2147483647 ∣ d := by
  have hp : Nat.Prime 2147483647 := lucas_lehmer_sufficiency 31 (by norm_num) (by norm_num)
  refine period_of _ d full32c_ok ?_
  intro q hq hd
  rw [(Nat.prime_dvd_prime_iff_eq hq hp).1 hd]
  decide

/-! ### Double errors -/

theorem shn_one {p : W32} (hp : p.getLsbD 31 = true) (d : Nat) : shn p d 1 = 1 ↔ shn p d top = top := by
  have h1 : (1 : W32) = shn p 31 top := by rw [shn_top p 31 (by omega)]; rfl
  rw [h1, ← shn_add, Nat.add_comm, shn_add]
  exact ⟨fun h => shn_inj hp 31 h, fun h => by rw [h]⟩

theorem double_bit {p : W32} (hp : p.getLsbD 31 = true) (A B D : List Bool) (a b : Bool) (s : W32) :
    (A ++ a :: B ++ b :: D).foldl (feed p) s = (A ++ (!a) :: B ++ (!b) :: D).foldl (feed p) s ↔ shn p (B.length + 1) top = top := by
  simp only [List.foldl_append, List.foldl_cons]
  generalize List.foldl (feed p) s A = t
  have hx : ∀ x y : W32, x = y ↔ x ^^^ y = 0 := fun x y => BitVec.xor_eq_zero_iff.symm
  rw [hx, feed_zeros]
  have hb : ∀ c : Bool, bit1 c ^^^ bit1 (!c) = 1 := by decide
  have e : ∀ (u v : W32) (c : Bool), feed p u c ^^^ feed p v (!c) = sh p ((u ^^^ v) ^^^ 1) := by
    intro u v c
    rw [feed_eq, feed_eq, ← sh_xor, ← hb c]
    congr 1
    ac_rfl
  rw [e, feed_zeros, e, BitVec.xor_self]
  constructor
  · intro h
    have h := sh_inj_zero hp (shn_inj_zero hp _ h)
    have h := (hx _ _).2 h
    rw [BitVec.zero_xor] at h
    exact (shn_one hp _).1 h
  · intro h
    have h := (shn_one hp _).2 h
    have h : shn p B.length (sh p (0#32 ^^^ 1)) = 1 := by rw [BitVec.zero_xor]; exact h
    rw [h, BitVec.xor_self]
    have z : sh p 0#32 = 0 := by simp [sh]
    rw [z, shn_zero]

/-! ### Parity -/

/-- Whether a list has an odd number of ones. -/
def odd : List Bool → Bool
  | [] => false
  | b :: bs => b ^^ odd bs

/-- Whether a word has an odd number of ones among its lowest `n` bits. -/
def par : Nat → W32 → Bool
  | 0, _ => false
  | n + 1, x => x.getLsbD n ^^ par n x

theorem par_xor : ∀ (n : Nat) (x y : W32), par n (x ^^^ y) = (par n x ^^ par n y)
  | 0, _, _ => rfl
  | n + 1, x, y => by
    simp only [par]
    rw [par_xor n, BitVec.getLsbD_xor]
    cases x.getLsbD n <;> cases y.getLsbD n <;> cases par n x <;> cases par n y <;> rfl

theorem par_shift : ∀ (n : Nat) (x : W32), (par n (x >>> 1) ^^ x.getLsbD 0) = par (n + 1) x
  | 0, x => by simp [par]
  | n + 1, x => by
    have := par_shift n x
    simp only [par] at this ⊢
    rw [Bool.xor_assoc, this, BitVec.getLsbD_ushiftRight, Nat.add_comm 1 n]

theorem par_sh (x : W32) : par 32 (sh revCrc32c x) = par 32 x := by
  unfold sh
  rw [par_xor]
  have h1 := par_shift 32 x
  have h2 : par 33 x = par 32 x := by
    rw [show (33 : Nat) = 32 + 1 from rfl, par, BitVec.getLsbD_of_ge x 32 (by omega)]; simp
  rw [h2] at h1
  rw [← h1]
  congr 1
  cases x.getLsbD 0
  · decide
  · decide

theorem par_feed (s : W32) (b : Bool) : par 32 (feed revCrc32c s b) = (par 32 s ^^ b) := by
  rw [feed_eq, par_sh, par_xor]
  congr 1
  cases b <;> decide

theorem par_feeds : ∀ (bs : List Bool) (s : W32), par 32 (bs.foldl (feed revCrc32c) s) = (par 32 s ^^ odd bs)
  | [], s => by simp [odd]
  | b :: bs, s => by
    rw [List.foldl_cons, par_feeds bs, par_feed, odd, Bool.xor_assoc]

theorem odd_differences : ∀ (a b : List Bool), a.length = b.length →
    (odd a ^^ odd b) = decide ((a.zip b).countP (fun q => q.1 ≠ q.2) % 2 = 1)
  | [], [], _ => rfl
  | x :: a, y :: b, h => by
    have ih := odd_differences a b (by simpa using h)
    simp only [List.zip_cons_cons, List.countP_cons, odd]
    have e : ((x ^^ odd a) ^^ (y ^^ odd b)) = ((x ^^ y) ^^ (odd a ^^ odd b)) := by
      cases x <;> cases y <;> cases odd a <;> cases odd b <;> rfl
    rw [e, ih]
    generalize (a.zip b).countP (fun q => decide (q.1 ≠ q.2)) = c
    rcases Nat.mod_two_eq_zero_or_one c with hc | hc
    · cases x <;> cases y <;> simp [hc, Nat.add_mod]
    · cases x <;> cases y <;> simp [hc, Nat.add_mod]

end Ulz.Crc

import Verif.Spec.Blocks
/-! FIPS 180-4, SHA-512, independent of the model. -/
namespace Ulz.Sha512.Spec

abbrev W := BitVec 64

/-- The first eighty prime numbers. -/
def primes : List Nat := (List.range 410).filter fun p => 2 ≤ p && (List.range p).all fun d => d < 2 || p % d ≠ 0

/-- The largest `r < 2^n` with `r ^ e ≤ x`, bit by bit. -/
def root (e x : Nat) : (n : Nat) → (r : Nat) → Nat
  | 0, r => r
  | n + 1, r => root e x n (if (r + 2 ^ n) ^ e ≤ x then r + 2 ^ n else r)

/-- FIPS 180-4, 4.2.3: the first 64 bits of the fractional part of the cube root of the `t`-th prime. -/
def k (t : Nat) : W := BitVec.ofNat 64 (root 3 (primes.getD t 0 * 2 ^ 192) 68 0)

/-- FIPS 180-4, 5.3.5: the first 64 bits of the fractional part of the square root of the `i`-th prime. -/
def h0 (i : Nat) : W := BitVec.ofNat 64 (root 2 (primes.getD i 0 * 2 ^ 128) 68 0)

/-- FIPS 180-4, 4.1.3. -/
def ch (x y z : W) : W := (x &&& y) ^^^ (~~~ x &&& z)
def maj (x y z : W) : W := (x &&& y) ^^^ (x &&& z) ^^^ (y &&& z)
def bsig0 (x : W) : W := x.rotateRight 28 ^^^ x.rotateRight 34 ^^^ x.rotateRight 39
def bsig1 (x : W) : W := x.rotateRight 14 ^^^ x.rotateRight 18 ^^^ x.rotateRight 41
def ssig0 (x : W) : W := x.rotateRight 1 ^^^ x.rotateRight 8 ^^^ (x >>> 7)
def ssig1 (x : W) : W := x.rotateRight 19 ^^^ x.rotateRight 61 ^^^ (x >>> 6)

/-- Word `j` of a block: eight bytes, the high-order byte first. -/
def word (blk : List Byte) (j : Nat) : W :=
  ((blk.drop (8 * j)).take 8).foldl (fun u b => u * 256 + b.setWidth 64) 0

/-- FIPS 180-4, 6.4.2, step 1: the first `16 + n` words of the message schedule. -/
def sched (blk : List Byte) : Nat → List W
  | 0 => (List.range 16).map (word blk)
  | n + 1 =>
    let w := sched blk n
    let t := 16 + n
    w ++ [ssig1 (w.getD (t - 2) 0) + w.getD (t - 7) 0 + ssig0 (w.getD (t - 15) 0) + w.getD (t - 16) 0]

/-- The working variables. -/
structure Regs where
  a : W
  b : W
  c : W
  d : W
  e : W
  f : W
  g : W
  h : W
  deriving DecidableEq

/-- FIPS 180-4, 6.4.2, step 3: one of the 80 rounds. -/
def round (w : List W) (r : Regs) (t : Nat) : Regs :=
  let t1 := r.h + bsig1 r.e + ch r.e r.f r.g + k t + w.getD t 0
  let t2 := bsig0 r.a + maj r.a r.b r.c
  ⟨t1 + t2, r.a, r.b, r.c, r.d + t1, r.e, r.f, r.g⟩

/-- FIPS 180-4, 6.4.2: one block. -/
def compress (r : Regs) (blk : List Byte) : Regs :=
  let s := (List.range 80).foldl (round (sched blk 64)) r
  ⟨r.a + s.a, r.b + s.b, r.c + s.c, r.d + s.d, r.e + s.e, r.f + s.f, r.g + s.g, r.h + s.h⟩

def init : Regs := ⟨h0 0, h0 1, h0 2, h0 3, h0 4, h0 5, h0 6, h0 7⟩

/-- All complete blocks of `m`, starting from `r`. -/
def process (r : Regs) (m : List Byte) : Regs := (blocks 128 (m.length / 128) m).foldl compress r

/-- The eight bytes of a word, high-order byte first. -/
def bytesBE (w : W) : List Byte := (List.range 8).map fun j => w.extractLsb' (8 * (7 - j)) 8

/-- FIPS 180-4, 5.1.2: a one bit, zeros up to 112 modulo 128 bytes, the length in bits as a 128-bit number. -/
def pad (m : List Byte) : List Byte :=
  m ++ [0x80] ++ List.replicate ((239 - m.length % 128) % 128) 0 ++
    (List.range 16).map fun j => (BitVec.ofNat 128 (8 * m.length)).extractLsb' (8 * (15 - j)) 8

def digest (r : Regs) : List Byte :=
  bytesBE r.a ++ bytesBE r.b ++ bytesBE r.c ++ bytesBE r.d ++ bytesBE r.e ++ bytesBE r.f ++ bytesBE r.g ++ bytesBE r.h

/-- The SHA-512 digest. -/
def sha512 (m : List Byte) : List Byte := digest (process init (pad m))

/-- The part of a chunk that consists of whole blocks. -/
def whole (c : List Byte) : List Byte := c.take (128 * (c.length / 128))

/-- What a chunk has behind its last whole block. -/
def rest (c : List Byte) : List Byte := c.drop (128 * (c.length / 128))

/-- The byte at `i` of the last of the rests that reach that far, 0 if none does. -/
def lastByte (cs : List (List Byte)) (i : Nat) : Byte :=
  match cs.reverse.find? fun c => decide (i < (rest c).length) with
  | some c => (rest c).getD i 0
  | none => 0

/-- The last one or two blocks that are hashed for arbitrary chunks: the bytes above with the padding's first byte put at the total
    length modulo 128, and nine bytes of the length in bits. -/
def lastBlocks (cs : List (List Byte)) : List Byte :=
  let total := cs.flatten.length
  let n := total % 128
  let e := if n < 112 then 128 else 256
  ((List.range (e - 9)).map fun i => if i = n then 0x80 else lastByte cs i) ++
    (List.range 9).map fun j => (BitVec.ofNat 128 (8 * total)).extractLsb' (8 * (8 - j)) 8

end Ulz.Sha512.Spec

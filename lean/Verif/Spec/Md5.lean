import Verif.Spec.Blocks
/-! RFC 1321, independent of the model. -/
namespace Ulz.Md5.Spec

abbrev W := BitVec 32
/-- The registers A, B, C, D. -/
abbrev Regs := W × W × W × W

/-- RFC 1321, 3.4: the table T[1..64], `floor (2^32 * |sin i|)`. -/
def T : List W :=
  [0xd76aa478, 0xe8c7b756, 0x242070db, 0xc1bdceee, 0xf57c0faf, 0x4787c62a, 0xa8304613, 0xfd469501,
   0x698098d8, 0x8b44f7af, 0xffff5bb1, 0x895cd7be, 0x6b901122, 0xfd987193, 0xa679438e, 0x49b40821,
   0xf61e2562, 0xc040b340, 0x265e5a51, 0xe9b6c7aa, 0xd62f105d, 0x02441453, 0xd8a1e681, 0xe7d3fbc8,
   0x21e1cde6, 0xc33707d6, 0xf4d50d87, 0x455a14ed, 0xa9e3e905, 0xfcefa3f8, 0x676f02d9, 0x8d2a4c8a,
   0xfffa3942, 0x8771f681, 0x6d9d6122, 0xfde5380c, 0xa4beea44, 0x4bdecfa9, 0xf6bb4b60, 0xbebfbc70,
   0x289b7ec6, 0xeaa127fa, 0xd4ef3085, 0x04881d05, 0xd9d4d039, 0xe6db99e5, 0x1fa27cf8, 0xc4ac5665,
   0xf4292244, 0x432aff97, 0xab9423a7, 0xfc93a039, 0x655b59c3, 0x8f0ccc92, 0xffeff47d, 0x85845dd1,
   0x6fa87e4f, 0xfe2ce6e0, 0xa3014314, 0x4e0811a1, 0xf7537e82, 0xbd3af235, 0x2ad7d2bb, 0xeb86d391]

/-- The auxiliary function of step `i` (F, G, H, I, 16 steps each). -/
def f (i : Nat) (x y z : W) : W :=
  if i < 16 then (x &&& y) ||| (~~~ x &&& z)
  else if i < 32 then (x &&& z) ||| (y &&& ~~~ z)
  else if i < 48 then x ^^^ y ^^^ z
  else y ^^^ (x ||| ~~~ z)

/-- The message word used in step `i`. -/
def k (i : Nat) : Nat :=
  if i < 16 then i
  else if i < 32 then (5 * i + 1) % 16
  else if i < 48 then (3 * i + 5) % 16
  else (7 * i) % 16

/-- The rotation of step `i`. -/
def s (i : Nat) : Nat :=
  if i < 16 then [7, 12, 17, 22].getD (i % 4) 0
  else if i < 32 then [5, 9, 14, 20].getD (i % 4) 0
  else if i < 48 then [4, 11, 16, 23].getD (i % 4) 0
  else [6, 10, 15, 21].getD (i % 4) 0

/-- Word `j` of a block: four bytes, the low-order byte first. -/
def word (blk : List Byte) (j : Nat) : W :=
  blk.getD (4 * j + 3) 0 ++ blk.getD (4 * j + 2) 0 ++ blk.getD (4 * j + 1) 0 ++ blk.getD (4 * j) 0

/-- Step `i`: `a = b + ((a + f(b,c,d) + X[k] + T[i]) <<< s)`, then the registers change roles. -/
def step (blk : List Byte) (r : Regs) (i : Nat) : Regs :=
  let (a, b, c, d) := r
  (d, b + (a + f i b c d + word blk (k i) + T.getD i 0).rotateLeft (s i), b, c)

/-- The 64 steps on one block, added to the registers. -/
def compress (r : Regs) (blk : List Byte) : Regs :=
  let (a, b, c, d) := (List.range 64).foldl (step blk) r
  (r.1 + a, r.2.1 + b, r.2.2.1 + c, r.2.2.2 + d)

/-- RFC 1321, 3.3. -/
def iv : Regs := (0x67452301, 0xefcdab89, 0x98badcfe, 0x10325476)

/-- All complete blocks of `m`, starting from `r`. -/
def process (r : Regs) (m : List Byte) : Regs := (blocks 64 (m.length / 64) m).foldl compress r

/-- The bytes of a word, low-order byte first. -/
def bytesLE (w : W) : List Byte := (List.range 4).map fun j => w.extractLsb' (8 * j) 8

/-- RFC 1321, 3.1 and 3.2: a one bit, zeros up to 56 modulo 64 bytes, the length in bits modulo 2^64. -/
def pad (m : List Byte) : List Byte :=
  m ++ [0x80] ++ List.replicate ((119 - m.length % 64) % 64) 0 ++
    (List.range 8).map fun j => (BitVec.ofNat 64 (8 * m.length)).extractLsb' (8 * j) 8

/-- The MD5 digest. -/
def md5 (m : List Byte) : List Byte :=
  let (a, b, c, d) := process iv (pad m)
  bytesLE a ++ bytesLE b ++ bytesLE c ++ bytesLE d

end Ulz.Md5.Spec

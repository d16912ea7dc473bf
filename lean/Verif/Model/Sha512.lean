import Verif.Model.Mem
/-! Model of src/sha512/sha512.c. -/
namespace Ulz.Sha512

/-- src/sha512/sha512.c: `u64`. -/
abbrev W64 := BitVec 64

/-- `l[i]` of an array of words. -/
def at' (l : List W64) (i : Nat) : C W64 :=
  match l[i]? with
  | some x => pure x
  | none => .error .oobRead

/-- `l[i] = v` in an array of words. -/
def set' (l : List W64) (i : Nat) (v : W64) : C (List W64) :=
  if i < l.length then pure (l.set i v) else .error .oobWrite

/-- src/sha512/sha512.c:27-32: `n` bytes to go at offset `o`. -/
def dl64Loop (x : List Byte) (o : Nat) : (n : Nat) → (u : W64) → C W64
  | 0, u => pure u
  | n + 1, u => do
    let b ← rd x o
    dl64Loop x (o + 1) n ((u <<< 8) ||| b.setWidth 64)

/-- src/sha512/sha512.c:27-32, at offset `o`. -/
def dl64 (x : List Byte) (o : Nat) : C W64 := dl64Loop x o 8 0

/-- src/sha512/sha512.c:36: `x[i] = u` for the indexes below `n`, downwards. -/
def ts64Loop (x : List Byte) (o : Nat) : (n : Nat) → (u : W64) → C (List Byte)
  | 0, _ => pure x
  | n + 1, u => do
    let x ← wr x (o + n) (u.setWidth 8)
    ts64Loop x o n (u >>> 8)

/-- src/sha512/sha512.c:33-37, at offset `o`. -/
def ts64 (x : List Byte) (o : Nat) (u : W64) : C (List Byte) := ts64Loop x o 8 u

/-- src/sha512/sha512.c:38. -/
def R (x : W64) (c : Nat) : W64 := (x >>> c) ||| (x <<< (64 - c))
/-- src/sha512/sha512.c:39. -/
def Ch (x y z : W64) : W64 := (x &&& y) ^^^ (~~~ x &&& z)
/-- src/sha512/sha512.c:40. -/
def Maj (x y z : W64) : W64 := (x &&& y) ^^^ (x &&& z) ^^^ (y &&& z)
/-- src/sha512/sha512.c:41. -/
def Sigma0 (x : W64) : W64 := R x 28 ^^^ R x 34 ^^^ R x 39
/-- src/sha512/sha512.c:42. -/
def Sigma1 (x : W64) : W64 := R x 14 ^^^ R x 18 ^^^ R x 41
/-- src/sha512/sha512.c:43. -/
def sigma0 (x : W64) : W64 := R x 1 ^^^ R x 8 ^^^ (x >>> 7)
/-- src/sha512/sha512.c:44. -/
def sigma1 (x : W64) : W64 := R x 19 ^^^ R x 61 ^^^ (x >>> 6)

/-- src/sha512/sha512.c:46-68. -/
def K : List W64 :=
  [0x428a2f98d728ae22, 0x7137449123ef65cd, 0xb5c0fbcfec4d3b2f, 0xe9b5dba58189dbbc,
   0x3956c25bf348b538, 0x59f111f1b605d019, 0x923f82a4af194f9b, 0xab1c5ed5da6d8118,
   0xd807aa98a3030242, 0x12835b0145706fbe, 0x243185be4ee4b28c, 0x550c7dc3d5ffb4e2,
   0x72be5d74f27b896f, 0x80deb1fe3b1696b1, 0x9bdc06a725c71235, 0xc19bf174cf692694,
   0xe49b69c19ef14ad2, 0xefbe4786384f25e3, 0x0fc19dc68b8cd5b5, 0x240ca1cc77ac9c65,
   0x2de92c6f592b0275, 0x4a7484aa6ea6e483, 0x5cb0a9dcbd41fbd4, 0x76f988da831153b5,
   0x983e5152ee66dfab, 0xa831c66d2db43210, 0xb00327c898fb213f, 0xbf597fc7beef0ee4,
   0xc6e00bf33da88fc2, 0xd5a79147930aa725, 0x06ca6351e003826f, 0x142929670a0e6e70,
   0x27b70a8546d22ffc, 0x2e1b21385c26c926, 0x4d2c6dfc5ac42aed, 0x53380d139d95b3df,
   0x650a73548baf63de, 0x766a0abb3c77b2a8, 0x81c2c92e47edaee6, 0x92722c851482353b,
   0xa2bfe8a14cf10364, 0xa81a664bbc423001, 0xc24b8b70d0f89791, 0xc76c51a30654be30,
   0xd192e819d6ef5218, 0xd69906245565a910, 0xf40e35855771202a, 0x106aa07032bbd1b8,
   0x19a4c116b8d2d0c8, 0x1e376c085141ab53, 0x2748774cdf8eeb99, 0x34b0bcb5e19b48a8,
   0x391c0cb3c5c95a63, 0x4ed8aa4ae3418acb, 0x5b9cca4f7763e373, 0x682e6ff3d6b2b8a3,
   0x748f82ee5defb2fc, 0x78a5636f43172f60, 0x84c87814a1f0ab72, 0x8cc702081a6439ec,
   0x90befffa23631e28, 0xa4506cebde82bde9, 0xbef9a3f7b2c67915, 0xc67178f2e372532b,
   0xca273eceea26619c, 0xd186b8c721c0c207, 0xeada7dd6cde0eb1e, 0xf57d4f7fee6ed178,
   0x06f067aa72176fba, 0x0a637dc5a2c898a6, 0x113f9804bef90dae, 0x1b710b35131c471b,
   0x28db77f523047d84, 0x32caab7b40c72493, 0x3c9ebe0a15c9bebc, 0x431d67c49c100d4c,
   0x4cc5d4becb3e42b6, 0x597f299cfc657e2a, 0x5fcb6fab3ad6faec, 0x6c44198c4a475817]

/-- The arrays `a`, `b`, `z` of eight words, as a record: all their indexes are constants or loop over
    `0..7`. -/
structure A8 where
  a0 : W64
  a1 : W64
  a2 : W64
  a3 : W64
  a4 : W64
  a5 : W64
  a6 : W64
  a7 : W64

/-- src/sha512/sha512.c:81-85: `b[j] = a[j]`, the two changed words, `a[(j+1)%8] = b[j]`. -/
def roundA (a : A8) (k w : W64) : A8 :=
  let t := a.a7 + Sigma1 a.a4 + Ch a.a4 a.a5 a.a6 + k + w
  let b7 := t + Sigma0 a.a0 + Maj a.a0 a.a1 a.a2
  let b3 := a.a3 + t
  ⟨b7, a.a0, a.a1, a.a2, b3, a.a4, a.a5, a.a6⟩

/-- src/sha512/sha512.c:87-88: the loop over `j`, `n` iterations to go. -/
def schedLoop : (n : Nat) → (j : Nat) → List W64 → C (List W64)
  | 0, _, w => pure w
  | n + 1, j, w => do
    let v := (← at' w j) + ((← at' w ((j + 9) % 16)) + sigma0 (← at' w ((j + 1) % 16)) + sigma1 (← at' w ((j + 14) % 16)))
    let w ← set' w j v
    schedLoop n (j + 1) w

/-- src/sha512/sha512.c:86-88. -/
def sched (i : Nat) (w : List W64) : C (List W64) := if i % 16 = 15 then schedLoop 16 0 w else pure w

/-- src/sha512/sha512.c:80-89: `n` rounds to go from round `i` on. -/
def rounds : (n : Nat) → (i : Nat) → A8 → List W64 → C A8
  | 0, _, a, _ => pure a
  | n + 1, i, a, w => do
    let k ← at' K i
    let wi ← at' w (i % 16)
    let a := roundA a k wi
    let w ← sched i w
    rounds n (i + 1) a w

/-- src/sha512/sha512.c:78: `num` words from offset `o` on. -/
def dlRange (m : List Byte) (o : Nat) : (num : Nat) → C (List W64)
  | 0 => pure []
  | n + 1 => do
    let w ← dl64 m o
    let ws ← dlRange m (o + 8) n
    pure (w :: ws)

/-- src/sha512/sha512.c:91: `a[i] += z[i]`. -/
def addA (a z : A8) : A8 :=
  ⟨a.a0 + z.a0, a.a1 + z.a1, a.a2 + z.a2, a.a3 + z.a3, a.a4 + z.a4, a.a5 + z.a5, a.a6 + z.a6, a.a7 + z.a7⟩

/-- src/sha512/sha512.c:77-95: `a` and `z` are equal at the start of every iteration; `m` is the rest of the
    input, `n` its length. Every iteration consumes 128 bytes, `fuel` bounds their number. -/
def blockLoop : (fuel : Nat) → A8 → List Byte → C A8
  | 0, z, m => if m.length ≥ 128 then .error .hang else pure z
  | fuel + 1, z, m =>
    if m.length ≥ 128 then do
      let w ← dlRange m 0 16
      let a ← rounds 80 0 z w
      blockLoop fuel (addA a z) (m.drop 128)
    else pure z

/-- src/sha512/sha512.c:75: the eight words at `x`. -/
def loadA (x : List Byte) : C A8 := do
  let a0 ← dl64 x 0
  let a1 ← dl64 x 8
  let a2 ← dl64 x 16
  let a3 ← dl64 x 24
  let a4 ← dl64 x 32
  let a5 ← dl64 x 40
  let a6 ← dl64 x 48
  let a7 ← dl64 x 56
  pure ⟨a0, a1, a2, a3, a4, a5, a6, a7⟩

/-- src/sha512/sha512.c:97: the eight words stored at `x`. -/
def storeA (x : List Byte) (z : A8) : C (List Byte) := do
  let x ← ts64 x 0 z.a0
  let x ← ts64 x 8 z.a1
  let x ← ts64 x 16 z.a2
  let x ← ts64 x 24 z.a3
  let x ← ts64 x 32 z.a4
  let x ← ts64 x 40 z.a5
  let x ← ts64 x 48 z.a6
  ts64 x 56 z.a7

/-- src/sha512/sha512.c:70-100: the new `x`; `n` is the length of `m`. The result is not used by callers. -/
def crypto_hashblocks (x m : List Byte) : C (List Byte) := do
  let z ← loadA x
  let z ← blockLoop m.length z m
  storeA x z

/-- src/sha512/sha512.c:101-110. -/
def iv : List Byte :=
  [0x6a, 0x09, 0xe6, 0x67, 0xf3, 0xbc, 0xc9, 0x08,
   0xbb, 0x67, 0xae, 0x85, 0x84, 0xca, 0xa7, 0x3b,
   0x3c, 0x6e, 0xf3, 0x72, 0xfe, 0x94, 0xf8, 0x2b,
   0xa5, 0x4f, 0xf5, 0x3a, 0x5f, 0x1d, 0x36, 0xf1,
   0x51, 0x0e, 0x52, 0x7f, 0xad, 0xe6, 0x82, 0xd1,
   0x9b, 0x05, 0x68, 0x8c, 0x2b, 0x3e, 0x6c, 0x1f,
   0x1f, 0x83, 0xd9, 0xab, 0xfb, 0x41, 0xbd, 0x6b,
   0x5b, 0xe0, 0xcd, 0x19, 0x13, 0x7e, 0x21, 0x79]

/-- `sha512_ctx` (include/sha512.h:7-10). -/
structure Ctx where
  h : List Byte
  x : List Byte
  b : BitVec 64

/-- src/sha512/sha512.c:112-117. -/
def sha512_init : Ctx := ⟨iv, List.replicate 256 0, 0⟩

/-- src/sha512/sha512.c:119-127; `n` is the length of `buf`. The last `n & 127` bytes are copied to `x`. -/
def sha512_update (c : Ctx) (buf : List Byte) : C Ctx := do
  let h ← crypto_hashblocks c.h buf
  let b := c.b + BitVec.ofNat 64 buf.length
  let n := buf.length &&& 127
  let x ← wrN c.x 0 (← rdN buf (buf.length - n) n)
  pure ⟨h, x, b⟩

/-- src/sha512/sha512.c:132: the number of bytes of `x` to hash. -/
def tailLen (n : Nat) : Nat := 256 - 128 * (if n < 112 then 1 else 0)

/-- src/sha512/sha512.c:129-137: the context afterwards (its `h` is the result). -/
def sha512_end (c : Ctx) : C Ctx := do
  let n := (c.b &&& 127).toNat
  let x ← wr c.x n 128
  let n := tailLen n
  let x ← wr x (n - 9) ((c.b >>> 61).setWidth 8)
  let x ← ts64 x (n - 8) (c.b <<< 3)
  let h ← crypto_hashblocks c.h (← rdN x 0 n)
  pure { c with h := h, x := x }

/-- A sequence of updates. -/
def updates : Ctx → List (List Byte) → C Ctx
  | c, [] => pure c
  | c, b :: bs => do updates (← sha512_update c b) bs

/-- Init, updates, end: the 64 bytes pointed to by the result. -/
def run (chunks : List (List Byte)) : C (List Byte) := do
  let c ← updates sha512_init chunks
  let c ← sha512_end c
  pure c.h

end Ulz.Sha512

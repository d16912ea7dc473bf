import Verif.Model.Mem
import Verif.Model.Hex
/-! Model of src/md5/md5.c and src/md5/md5str.c. -/
namespace Ulz.Md5

/-- uint32_t. -/
abbrev W32 := BitVec 32
/-- The four words of `val`, or `a, b, c, d`. -/
abbrev St := W32 × W32 × W32 × W32

/-- `l[i]` of an array of words (or of `MP`). -/
def at' {α : Type} (l : List α) (i : Nat) : C α :=
  match l[i]? with
  | some x => pure x
  | none => .error .oobRead

/-- src/md5/md5.c:31. -/
def F (b c d : W32) : W32 := ((c ^^^ d) &&& b) ^^^ d
/-- src/md5/md5.c:32. -/
def G (b c d : W32) : W32 := ((c ^^^ b) &&& d) ^^^ c
/-- src/md5/md5.c:33. -/
def H (b c d : W32) : W32 := b ^^^ c ^^^ d
/-- src/md5/md5.c:34. -/
def I (b c d : W32) : W32 := c ^^^ (b ||| ~~~ d)

/-- src/md5/md5.c:36. -/
def ROTL (x : W32) (n : Nat) : W32 := (x <<< n) ||| (x >>> (32 - n))

/-- src/md5/md5.c:38-40. -/
def md5_IV : St := (0x67452301, 0xEFCDAB89, 0x98BADCFE, 0x10325476)

/-- src/md5/md5.c:42-62. -/
def K : List W32 :=
  [0xD76AA478, 0xE8C7B756, 0x242070DB, 0xC1BDCEEE, 0xF57C0FAF, 0x4787C62A, 0xA8304613, 0xFD469501,
   0x698098D8, 0x8B44F7AF, 0xFFFF5BB1, 0x895CD7BE, 0x6B901122, 0xFD987193, 0xA679438E, 0x49B40821,
   0xF61E2562, 0xC040B340, 0x265E5A51, 0xE9B6C7AA, 0xD62F105D, 0x02441453, 0xD8A1E681, 0xE7D3FBC8,
   0x21E1CDE6, 0xC33707D6, 0xF4D50D87, 0x455A14ED, 0xA9E3E905, 0xFCEFA3F8, 0x676F02D9, 0x8D2A4C8A,
   0xFFFA3942, 0x8771F681, 0x6D9D6122, 0xFDE5380C, 0xA4BEEA44, 0x4BDECFA9, 0xF6BB4B60, 0xBEBFBC70,
   0x289B7EC6, 0xEAA127FA, 0xD4EF3085, 0x04881D05, 0xD9D4D039, 0xE6DB99E5, 0x1FA27CF8, 0xC4AC5665,
   0xF4292244, 0x432AFF97, 0xAB9423A7, 0xFC93A039, 0x655B59C3, 0x8F0CCC92, 0xFFEFF47D, 0x85845DD1,
   0x6FA87E4F, 0xFE2CE6E0, 0xA3014314, 0x4E0811A1, 0xF7537E82, 0xBD3AF235, 0x2AD7D2BB, 0xEB86D391]

/-- src/md5/md5.c:64-68. -/
def MP : List Nat :=
  [1, 6, 11, 0, 5, 10, 15, 4, 9, 14, 3, 8, 13, 2, 7, 12,
   5, 8, 11, 14, 1, 4, 7, 10, 13, 0, 3, 6, 9, 12, 15, 2,
   0, 7, 14, 5, 12, 3, 10, 1, 8, 15, 6, 13, 4, 11, 2, 9]

/-- src/md5/md5.c:70-79, on the bytes at offset `o` of `buf`. -/
def dec32le (buf : List Byte) (o : Nat) : C W32 := do
  let b0 ← rd buf o
  let b1 ← rd buf (o + 1)
  let b2 ← rd buf (o + 2)
  let b3 ← rd buf (o + 3)
  pure (b0.setWidth 32 ||| (b1.setWidth 32 <<< 8) ||| (b2.setWidth 32 <<< 16) ||| (b3.setWidth 32 <<< 24))

/-- src/md5/md5.c:81-90: `num` words from offset `o` on. -/
def range_dec32le (buf : List Byte) (o : Nat) : (num : Nat) → C (List W32)
  | 0 => pure []
  | n + 1 => do
    let w ← dec32le buf o
    let ws ← range_dec32le buf (o + 4) n
    pure (w :: ws)

/-- One body of the loops in src/md5/md5.c:106-129, which differ in the function `f`, the choice of the
    message word `mi` and the rotations `r`. -/
def quad (f : W32 → W32 → W32 → W32) (mi : Nat → C W32) (r0 r1 r2 r3 : Nat) (i : Nat) (st : St) : C St := do
  let (a, b, c, d) := st
  let a := b + ROTL (a + f b c d + (← mi (i + 0)) + (← at' K (i + 0))) r0
  let d := a + ROTL (d + f a b c + (← mi (i + 1)) + (← at' K (i + 1))) r1
  let c := d + ROTL (c + f d a b + (← mi (i + 2)) + (← at' K (i + 2))) r2
  let b := c + ROTL (b + f c d a + (← mi (i + 3)) + (← at' K (i + 3))) r3
  pure (a, b, c, d)

/-- src/md5/md5.c:106-111: the message words of the first loop. -/
def direct (m : List W32) (i : Nat) : C W32 := at' m i
/-- src/md5/md5.c:112-129: the message words of the other loops. -/
def permuted (m : List W32) (i : Nat) : C W32 := do at' m (← at' MP (i - 16))

/-- src/md5/md5.c:93-135. -/
def md5_round (buf : List Byte) (val : St) : C St := do
  let m ← range_dec32le buf 0 16
  let st ← [0, 4, 8, 12].foldlM (fun st i => quad F (direct m) 7 12 17 22 i st) val
  let st ← [16, 20, 24, 28].foldlM (fun st i => quad G (permuted m) 5 9 14 20 i st) st
  let st ← [32, 36, 40, 44].foldlM (fun st i => quad H (permuted m) 4 11 16 23 i st) st
  let st ← [48, 52, 56, 60].foldlM (fun st i => quad I (permuted m) 6 10 15 21 i st) st
  pure (val.1 + st.1, val.2.1 + st.2.1, val.2.2.1 + st.2.2.1, val.2.2.2 + st.2.2.2)

/-- `md5_ctx` (include/md5.h:8-12). -/
structure Ctx where
  buf : List Byte
  count : BitVec 64
  val : St

/-- src/md5/md5.c:137-141; `junk` is what the uninitialised `buf` holds. -/
def md5_init (junk : List Byte) : Ctx := ⟨junk, 0, md5_IV⟩

/-- src/md5/md5.c:162-165: the round when the buffer is full. -/
def flush (cc : Ctx) (ptr : Nat) : C (Ctx × Nat) :=
  if ptr = 64 then do
    let v ← md5_round cc.buf cc.val
    pure ({ cc with val := v }, 0)
  else pure (cc, ptr)

/-- src/md5/md5.c:150-166; `data` is what is left of the input. Every iteration consumes at least one
    byte, `fuel` bounds their number. -/
def updateLoop : (fuel : Nat) → (cc : Ctx) → (ptr : Nat) → (data : List Byte) → C Ctx
  | 0, cc, _, data => if data.length = 0 then pure cc else .error .hang
  | fuel + 1, cc, ptr, data =>
    if data.length = 0 then pure cc
    else do
      let clen := sztSub 64 ptr
      let clen := if clen > data.length then data.length else clen
      let buf ← wrN cc.buf ptr (data.take clen)
      let (cc, ptr) ← flush { cc with buf := buf, count := cc.count + BitVec.ofNat 64 clen } (ptr + clen)
      updateLoop fuel cc ptr (data.drop clen)

/-- src/md5/md5.c:143-167. -/
def md5_update (cc : Ctx) (data : List Byte) : C Ctx :=
  updateLoop data.length cc (cc.count &&& 63).toNat data

/-- src/md5/md5.c:169-178, at offset `o`. -/
def enc32le (dst : List Byte) (o : Nat) (x : W32) : C (List Byte) := do
  let dst ← wr dst o (x.setWidth 8)
  let dst ← wr dst (o + 1) ((x >>> 8).setWidth 8)
  let dst ← wr dst (o + 2) ((x >>> 16).setWidth 8)
  wr dst (o + 3) ((x >>> 24).setWidth 8)

/-- src/md5/md5.c:180-189, at offset `o`. -/
def range_enc32le (dst : List Byte) (o : Nat) : List W32 → C (List Byte)
  | [] => pure dst
  | x :: v => do
    let dst ← enc32le dst o x
    range_enc32le dst (o + 4) v

/-- src/md5/md5.c:191-198, at offset `o`. -/
def enc64le (dst : List Byte) (o : Nat) (x : BitVec 64) : C (List Byte) := do
  let dst ← enc32le dst o (x.setWidth 32)
  enc32le dst (o + 4) ((x >>> 32).setWidth 32)

/-- src/md5/md5.c:210-216: clearing up to the length field, with an extra block if there is no room. -/
def padTail (buf : List Byte) (val : St) (ptr : Nat) : C (List Byte × St) :=
  if ptr > 56 then do
    let buf ← wrN buf ptr (List.replicate (64 - ptr) 0)
    let val ← md5_round buf val
    let buf ← wrN buf 0 (List.replicate 56 0)
    pure (buf, val)
  else do
    let buf ← wrN buf ptr (List.replicate (56 - ptr) 0)
    pure (buf, val)

/-- src/md5/md5.c:200-220; `junk` is what the local `buf` holds at the start. -/
def md5_end (cc : Ctx) (junk dst : List Byte) : C (List Byte) := do
  let ptr := (cc.count &&& 63).toNat
  let buf ← wrN junk 0 (← rdN cc.buf 0 ptr)
  let buf ← wr buf ptr 0x80
  let (buf, val) ← padTail buf cc.val (ptr + 1)
  let buf ← enc64le buf 56 (cc.count <<< 3)
  let val ← md5_round buf val
  range_enc32le dst 0 [val.1, val.2.1, val.2.2.1, val.2.2.2]

/-- A sequence of updates. -/
def updates : Ctx → List (List Byte) → C Ctx
  | cc, [] => pure cc
  | cc, c :: cs => do updates (← md5_update cc c) cs

/-- src/md5/md5str.c:4-11; `j1`, `j2`, `j3` are what `m.buf`, the buffer in md5_end and `raw` hold. -/
def md5str (j1 j2 j3 : List Byte) (dst src : List Byte) : C (List Byte) := do
  let m ← md5_update (md5_init j1) src
  let raw ← md5_end m j2 j3
  Hex.raw2hex dst raw

end Ulz.Md5

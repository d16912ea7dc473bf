import Verif.Model.Base64
import Verif.Model.Hex
import Verif.Model.Rc4
/-! The converting functions of strlib with source and destination in the same object: every load sees the stores made before it.
    `mem` is the object, `dp` and `sp` the offsets of destination and source in it. -/
namespace Ulz.Overlap

/-- src/strlib/base64enc.c:8-29: `d` and `s` are the offsets of the C pointers of these names. -/
def encLoop (mem : List Byte) (d s : Nat) : (count : Nat) → C (List Byte)
  | 0 => wr mem d 0
  | 1 => do
    let a ← rd mem s
    let mem ← Base64.emit mem d (a.toNat <<< 16) 0
    encLoop mem (d + 4) (s + 1) 0
  | 2 => do
    let a ← rd mem s
    let b ← rd mem (s + 1)
    let mem ← Base64.emit mem d (a.toNat <<< 16 ||| b.toNat <<< 8) 1
    encLoop mem (d + 4) (s + 2) 0
  | count + 3 => do
    let a ← rd mem s
    let b ← rd mem (s + 1)
    let c ← rd mem (s + 2)
    let mem ← Base64.emit mem d (a.toNat <<< 16 ||| b.toNat <<< 8 ||| c.toNat) 2
    encLoop mem (d + 4) (s + 3) count

/-- src/strlib/base64enc.c:4-30: `base64enc(mem + dp, mem + sp, count)`. -/
def base64enc (mem : List Byte) (dp sp count : Nat) : C (List Byte) := encLoop mem dp sp count

/-- src/strlib/base64dec.c:15-40; in `st` the destination is all of the object and `d` an offset in it. The first argument bounds the
    number of rounds; the loop cannot read more bytes than the object has. -/
def decLoop : (fuel : Nat) → (s : Nat) → Base64.Dec → C (List Byte × Nat)
  | 0, _, _ => .error .hang
  | f + 1, s, st => do
    let c ← rd st.dst s
    if c = ch '=' then
      let skip := st.skip + 1
      if skip > 2 then pure (st.dst, 0)
      else do
        let (st', stop) ← Base64.decPush { st with skip := skip } 0
        if stop then pure (st'.dst, 0) else decLoop f (s + 1) st'
    else if c = 0 then
      if st.cnt % 4 ≠ 0 ∨ st.l = 0 then pure (st.dst, 0)
      else do
        let dst ← wr st.dst st.d 0
        pure (dst, st.o)
    else if st.skip ≠ 0 then pure (st.dst, 0)
    else match Base64.chrpos c with
      | none => pure (st.dst, 0)
      | some p => do
        let (st', stop) ← Base64.decPush st p
        if stop then pure (st'.dst, 0) else decLoop f (s + 1) st'

/-- src/strlib/base64dec.c:10-42: `base64dec(mem + dp, mem + sp, dst_len)`. -/
def base64dec (mem : List Byte) (dp sp dst_len : Nat) : C (List Byte × Nat) :=
  if dst_len ≠ 0 then decLoop (mem.length + 1) sp { dst := mem, d := dp, l := dst_len } else pure (mem, 0)

/-- src/strlib/raw2hex.c:7-11: `src[i]` is read once before and once after the first store. -/
def raw2hexLoop (mem : List Byte) (o s : Nat) : (n : Nat) → C (List Byte)
  | 0 => wr mem o 0
  | n + 1 => do
    let mem ← wr mem (o + 0) (← rd Hex.hextab (0xf &&& ((← rd mem s).toNat >>> 4)))
    let mem ← wr mem (o + 1) (← rd Hex.hextab (0xf &&& (← rd mem s).toNat))
    raw2hexLoop mem (o + 2) (s + 1) n

/-- src/strlib/raw2hex.c:4-12: `raw2hex(mem + dp, mem + sp, len)`. -/
def raw2hex (mem : List Byte) (dp sp len : Nat) : C (List Byte) := raw2hexLoop mem dp sp len

/-- src/strlib/hex2raw.c:34-42. -/
def hex2rawLoop : (fuel : Nat) → (mem : List Byte) → (o s : Nat) → C (List Byte)
  | 0, _, _, _ => .error .hang
  | f + 1, mem, o, s => do
    let h ← rd mem s
    if h = 0 then pure mem
    else match Hex.hval h with
      | none => .error .overflow
      | some c => do
        let h' ← rd mem (s + 1)
        let v := match Hex.hval h' with
          | some c' => BitVec.ofNat 8 ((c <<< 4) ||| c')
          | none => 0xff
        let mem ← wr mem o v
        hex2rawLoop f mem (o + 1) (s + 2)

/-- src/strlib/hex2raw.c:26-44: `hex2raw(mem + sp, mem + dp)`. -/
def hex2raw (mem : List Byte) (sp dp : Nat) : C (List Byte × Nat) := do
  let l ← Hex.strlen (mem.drop sp)
  if l % 2 = 1 then do
    let h ← rd mem sp
    let mem ← wr mem dp (Hex.hvalByte h)
    let mem ← hex2rawLoop (mem.length + 1) mem (dp + 1) (sp + 1)
    pure (mem, (l + 1) / 2)
  else do
    let mem ← hex2rawLoop (mem.length + 1) mem dp sp
    pure (mem, l / 2)

/-- src/strlib/rc4.c:14-19; `n` is `len - x`. -/
def crypt (dp sp : Nat) : (n : Nat) → (x y z : Nat) → (box mem : List Byte) → C (List Byte)
  | 0, _, _, _, _, mem => pure mem
  | n + 1, x, y, z, box, mem => do
    let (box, y, z, k) ← Rc4.step box y z
    let mem ← wr mem (dp + x) ((← rd mem (sp + x)) ^^^ k)
    crypt dp sp n (x + 1) y z box mem

/-- src/strlib/rc4.c:4-20: `rc4(mem + dp, mem + sp, len, key, keylen)`. -/
def rc4 (mem : List Byte) (dp sp len : Nat) (key : List Byte) : C (List Byte) := do
  crypt dp sp len 0 0 0 (← Rc4.initBox key) mem

end Ulz.Overlap

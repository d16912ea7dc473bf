import Verif.Base
/-! Model of the base64 functions of strlib. -/
namespace Ulz.Base64

/-- src/strlib/base64_tbl.c:3. -/
def tbl : List Byte := bytes! "ABCDEFGHIJKLMNOPQRSTUVWXYZabcdefghijklmnopqrstuvwxyz0123456789+/"

/-- The four stores of one group, src/strlib/base64enc.c:24-27 (and src/strlib/base64enc_str.c:22-25).
    `n` is the C `int n`; it is non-negative and below 2^24, hence a `Nat`. `d` is the offset of the
    C pointer `d` from `dst`. -/
def emit (dst : List Byte) (d n i : Nat) : C (List Byte) := do
  let dst ← wr dst d (← rd tbl ((n >>> 18) &&& 0x3f))
  let dst ← wr dst (d+1) (← rd tbl ((n >>> 12) &&& 0x3f))
  let dst ← wr dst (d+2) (← if i ≠ 0 then rd tbl ((n >>> 6) &&& 0x3f) else pure (ch '='))
  wr dst (d+3) (← if i = 2 then rd tbl (n &&& 0x3f) else pure (ch '='))

/-- The loop of src/strlib/base64enc.c:8-29. The list is the `count` bytes `s` still points to;
    a match on it is the sequence of `if(count)` tests (lines 12-23). -/
def encLoop (dst : List Byte) (d : Nat) : List Byte → C (List Byte)
  | [] => wr dst d 0
  | [a] => do
      let dst ← emit dst d (a.toNat <<< 16) 0
      encLoop dst (d+4) []
  | [a, b] => do
      let dst ← emit dst d (a.toNat <<< 16 ||| b.toNat <<< 8) 1
      encLoop dst (d+4) []
  | a :: b :: c :: s => do
      let dst ← emit dst d (a.toNat <<< 16 ||| b.toNat <<< 8 ||| c.toNat) 2
      encLoop dst (d+4) s

/-- src/strlib/base64enc.c:4-30. `count` is the length of `src`. Result: final content of `dst`. -/
def base64enc (dst src : List Byte) : C (List Byte) := encLoop dst 0 src

/-- The loop of src/strlib/base64enc_str.c:9-32 over the bytes from `s` to the end of the source
    object; running off the object is an out-of-bounds read. `l` is the C variable `l`. -/
def encStrLoop (dst : List Byte) (d l : Nat) : List Byte → C (List Byte × Nat)
  | [] => .error .oobRead
  | a :: s =>
    if a ≠ 0 ∧ l > 4 then
      match s with
      | [] => .error .oobRead
      | b :: s' =>
        if b ≠ 0 then
          match s' with
          | [] => .error .oobRead
          | c :: s'' =>
            if c ≠ 0 then do
              let dst ← emit dst d (a.toNat <<< 16 ||| b.toNat <<< 8 ||| c.toNat) 2
              encStrLoop dst (d+4) (l-4) s''
            else do
              let dst ← emit dst d (a.toNat <<< 16 ||| b.toNat <<< 8) 1
              encStrLoop dst (d+4) (l-4) (c :: s'')
        else do
          -- lines 12 and 17 test the same terminator
          let dst ← emit dst d (a.toNat <<< 16) 0
          encStrLoop dst (d+4) (l-4) (b :: s')
    else if l ≠ 0 then do
      let dst ← wr dst d 0
      pure (dst, if a = 0 then 1 else 0)
    else pure (dst, 0)
  termination_by s => s.length

/-- src/strlib/base64enc_str.c:5-33. `src` is the whole source object (terminator included).
    Result: final content of `dst` and the return value. -/
def base64enc_str (dst src : List Byte) (dst_len : Nat) : C (List Byte × Nat) :=
  encStrLoop dst 0 dst_len src

/-- src/strlib/base64dec.c:5-9: position of `c` in the table, `none` for -1. -/
def chrpos (c : Byte) : Option Nat :=
  let i := tbl.idxOf c
  if i < 64 then some i else none

/-- Local variables of src/strlib/base64dec.c:11-14. `n` stays below 2^24. -/
structure Dec where
  dst : List Byte
  d : Nat := 0
  l : Nat
  o : Nat := 0
  n : Nat := 0
  cnt : Nat := 0
  skip : Nat := 0

/-- src/strlib/base64dec.c:28-38. `cnt` is an `int`: incrementing 2^31-1 overflows. -/
def decPush (st : Dec) (p : Nat) : C (Dec × Bool) := do
  let n := (st.n <<< 6) ||| p
  if st.cnt = 2^31 - 1 then throw .overflow
  let cnt := st.cnt + 1
  if cnt % 4 = 0 then
    if st.l < 3 then pure (st, true)
    else
      let dst ← wr st.dst st.d (BitVec.ofNat 8 (n >>> 16))
      let dst ← wr dst (st.d+1) (BitVec.ofNat 8 ((n >>> 8) &&& 0xff))
      let dst ← wr dst (st.d+2) (BitVec.ofNat 8 (n &&& 0xff))
      pure ({ dst := dst, d := st.d+3, l := st.l - 3, o := st.o + (3 - st.skip), n := 0,
              cnt := cnt, skip := st.skip }, false)
  else pure ({ st with n := n, cnt := cnt }, false)

/-- The loop of src/strlib/base64dec.c:15-40; the list is what `s` still points to.
    The flag returned by `decPush` is the `return 0` of line 31. -/
def decLoop (st : Dec) : List Byte → C (List Byte × Nat)
  | [] => .error .oobRead
  | c :: s =>
    if c = ch '=' then
      let skip := st.skip + 1
      if skip > 2 then pure (st.dst, 0)
      else do
        let (st', stop) ← decPush { st with skip := skip } 0
        if stop then pure (st'.dst, 0) else decLoop st' s
    else if c = 0 then
      if st.cnt % 4 ≠ 0 ∨ st.l = 0 then pure (st.dst, 0)
      else do
        let dst ← wr st.dst st.d 0
        pure (dst, st.o)
    else if st.skip ≠ 0 then pure (st.dst, 0)
    else match chrpos c with
      | none => pure (st.dst, 0)
      | some p => do
        let (st', stop) ← decPush st p
        if stop then pure (st'.dst, 0) else decLoop st' s

/-- src/strlib/base64dec.c:10-42. Result: final content of `dst` and the return value. -/
def base64dec (dst src : List Byte) (dst_len : Nat) : C (List Byte × Nat) :=
  if dst_len ≠ 0 then decLoop { dst := dst, l := dst_len } src
  else pure (dst, 0)

end Ulz.Base64

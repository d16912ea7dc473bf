import Verif.Base
/-! Model of the CRC code (src/crc32/crc32_impl.c), included once for CRC-32 and once for CRC-32C. -/
namespace Ulz.Crc

/-- uint32_t. -/
abbrev W32 := BitVec 32

/-- src/crc32/crc32_impl.c:44 (POLYNOMIAL for CRC-32). -/
def polyCrc32 : W32 := 0x04C11DB7
/-- src/crc32/crc32_impl.c:39 (POLYNOMIAL for CRC-32C). -/
def polyCrc32c : W32 := 0x1EDC6F41

/-- src/crc32/crc32_impl.c:68-77. -/
def reverse (x : W32) : W32 :=
  let x := ((x &&& 0xffff0000) >>> 16) ||| ((x &&& 0x0000ffff) <<< 16)
  let x := ((x &&& 0xff00ff00) >>> 8) ||| ((x &&& 0x00ff00ff) <<< 8)
  let x := ((x &&& 0xf0f0f0f0) >>> 4) ||| ((x &&& 0x0f0f0f0f) <<< 4)
  let x := ((x &&& 0xcccccccc) >>> 2) ||| ((x &&& 0x33333333) <<< 2)
  ((x &&& 0xaaaaaaaa) >>> 1) ||| ((x &&& 0x55555555) <<< 1)

/-- src/crc32/crc32_impl.c:98-101: the body of the inner loop. -/
def stepL (poly r : W32) : W32 := if r &&& 0x80000000 ≠ 0 then (r <<< 1) ^^^ poly else r <<< 1

/-- src/crc32/crc32_impl.c:97-102: `n` rounds of the inner loop. -/
def stepsL (poly : W32) : Nat → W32 → W32
  | 0, r => r
  | n + 1, r => stepsL poly n (stepL poly r)

/-- src/crc32/crc32_impl.c:95-104: the entries with index `i` of the tables, `n` tables to go. -/
def entries (poly : W32) : (n : Nat) → (r : W32) → List W32
  | 0, _ => []
  | n + 1, r => let r := stepsL poly 8 r; reverse r :: entries poly n r

/-- src/crc32/crc32_impl.c:84-106: the four tables; `(tables poly)[j][i]` is `T[j][i]`. -/
def tables (poly : W32) : List (List W32) :=
  (List.range 4).map fun j => (List.range 256).map fun i => (entries poly 4 (reverse (BitVec.ofNat 32 i))).getD j 0

/-- `T[j][i]`; the pointers in `T` are NULL before InitTables (`none`). -/
def look (T : Option (List (List W32))) (j : Nat) (i : W32) : C W32 :=
  match T with
  | none => .error .nullDeref
  | some T =>
    match T[j]? with
    | none => .error .oobRead
    | some t =>
      match t[i.toNat]? with
      | none => .error .oobRead
      | some v => pure v

/-- src/crc32/crc32_impl.c:113-120. -/
def init : W32 := 0xffffffff

/-- src/crc32/crc32_impl.c:131-135: one block of four bytes. -/
def block (T : Option (List (List W32))) (s : W32) (b0 b1 b2 b3 : Byte) : C W32 := do
  let t0 ← look T 0 (((s >>> 24) &&& 0xff) ^^^ b3.setWidth 32)
  let t1 ← look T 1 (((s >>> 16) &&& 0xff) ^^^ b2.setWidth 32)
  let t2 ← look T 2 (((s >>> 8) &&& 0xff) ^^^ b1.setWidth 32)
  let t3 ← look T 3 ((s &&& 0xff) ^^^ b0.setWidth 32)
  pure (t0 ^^^ t1 ^^^ t2 ^^^ t3)

/-- src/crc32/crc32_impl.c:140-141: one byte. -/
def byte (T : Option (List (List W32))) (s : W32) (b : Byte) : C W32 := do
  let t ← look T 0 ((s &&& 0xff) ^^^ b.setWidth 32)
  pure ((s >>> 8) ^^^ t)

/-- src/crc32/crc32_impl.c:127-143 on the state and the `len` bytes at `buf`: blocks while at least four
    bytes are left, then single bytes. -/
def update (T : Option (List (List W32))) (s : W32) : List Byte → C W32
  | b0 :: b1 :: b2 :: b3 :: rest => do update T (← block T s b0 b1 b2 b3) rest
  | [] => pure s
  | b :: rest => do update T (← byte T s b) rest

/-- src/crc32/crc32_impl.c:152-160: the state afterwards and the four stored bytes. -/
def final (s : W32) : W32 × List Byte :=
  let s := s ^^^ 0xffffffff
  (s, [(s &&& 0xff).setWidth 8, ((s >>> 8) &&& 0xff).setWidth 8, ((s >>> 16) &&& 0xff).setWidth 8,
       ((s >>> 24) &&& 0xff).setWidth 8])

/-- A sequence of updates. -/
def updates (T : Option (List (List W32))) : W32 → List (List Byte) → C W32
  | s, [] => pure s
  | s, c :: cs => do updates T (← update T s c) cs

/-- Init, updates, Final: the stored bytes. -/
def run (T : Option (List (List W32))) (chunks : List (List Byte)) : C (List Byte) := do
  let s ← updates T init chunks
  pure (final s).2

end Ulz.Crc

import Verif.Model.Ssalloc
import Verif.Model.Mem
/-! The debugging variant of the single size allocator and tests/ssalloc_test.c, which uses it. The numbers of the program are
    parameters: `M` is SSA_MAXELEM (256), `E` is SSA_ELEMSIZE (6), `w` the bytes "ABCDEF", `probe` is 46. -/
namespace Ulz.Ssalloc

/-- include/ssalloc.c:96-107 with DEBUG defined: `none` is a call of `abort`. -/
def ssa_free_debug (M E : Nat) (p : Pool) (d : Int) : C (Option Pool) := do
  let idx := ssa_getidx E d
  if idx = -1 ∨ idx ≥ M then pure none
  else if ← getIdx p.used idx then
    let u ← Bitarray.BA_SET_FALSE p.used idx.toNat
    pure (some ⟨u, ← shrink u p.top, p.avail + 1⟩)
  else pure none

/-- The state of the test program: SSA_POOL with its memory, and `ptrs` (offsets, `none` is NULL). -/
structure T where
  pool : Pool
  mem : List Byte
  ptrs : List (Option Nat)
  deriving DecidableEq, Repr

/-- A loop over `n` values of `i`; `none` is `abort` (also by an assertion). -/
def loop (body : Nat → T → C (Option T)) : (n i : Nat) → T → C (Option T)
  | 0, _, t => pure (some t)
  | n + 1, i, t => do
    match ← body i t with
    | none => pure none
    | some t => loop body n (i + 1) t

/-- tests/ssalloc_test.c:17-18, 23-24, 37-38. -/
def give (M E : Nat) (w : List Byte) (i : Nat) (t : T) : C (Option T) := do
  let (pool, r) ← ssa_alloc M E t.pool E
  match r with
  | none => pure (some ⟨pool, t.mem, t.ptrs.set i none⟩)
  | some a => pure (some ⟨pool, ← wrN t.mem a w, t.ptrs.set i (some a)⟩)

/-- include/ssalloc.c:60 (SSNULL) of `ptrs[i]`, which is `a`. -/
def ssnull (M E : Nat) (i a : Nat) (t : T) : C (Option T) := do
  match ← ssa_free_debug M E t.pool (a : Int) with
  | none => pure none
  | some pool => pure (some ⟨pool, t.mem, t.ptrs.set i none⟩)

/-- The pointer `ptrs[i]`; the array has `M` elements. -/
def ptrAt (t : T) (i : Nat) : C (Option Nat) :=
  match t.ptrs[i]? with
  | some p => pure p
  | none => .error .oobRead

/-- tests/ssalloc_test.c:15-19; `r i` tells whether `rand()` is odd. -/
def first (M E : Nat) (w : List Byte) (r : Nat → Bool) (i : Nat) (t : T) : C (Option T) :=
  if r i then give M E w i t else pure (some t)

/-- tests/ssalloc_test.c:21-25 and 36-40 (with `r` always true). -/
def again (M E : Nat) (w : List Byte) (r : Nat → Bool) (i : Nat) (t : T) : C (Option T) := do
  match ← ptrAt t i with
  | none => if r i then give M E w i t else pure (some t)
  | some _ => pure (some t)

/-- tests/ssalloc_test.c:30-32 and 70-72 (with `r` always true). -/
def drop (M E : Nat) (r : Nat → Bool) (i : Nat) (t : T) : C (Option T) := do
  match ← ptrAt t i with
  | some a => if r i then ssnull M E i a t else pure (some t)
  | none => pure (some t)

/-- tests/ssalloc_test.c:45-48. -/
def checkPtr (E : Nat) (w : List Byte) (i : Nat) (t : T) : C (Option T) := do
  match ← ptrAt t i with
  | none => pure none
  | some a => if (← rdN t.mem a E) = w then pure (some t) else pure none

/-- tests/ssalloc_test.c:50-53, 64-68 and 77-80: bit `i` is `v`, unless `i` is `skip`. -/
def checkBit (v : Bool) (skip : Option Nat) (i : Nat) (t : T) : C (Option T) := do
  if skip = some i then pure (some t)
  else if (← Bitarray.BA_GET t.pool.used i) = v then pure (some t) else pure none

/-- An assertion. -/
def check (b : Bool) (t : T) : C (Option T) := if b then pure (some t) else pure none

/-- Sequencing of parts that may abort. -/
def andThen (x : C (Option T)) (f : T → C (Option T)) : C (Option T) := do
  match ← x with
  | none => pure none
  | some t => f t

/-- tests/ssalloc_test.c:11-83, without the output. SSA_POOL is static and `ssa_init` clears its memory. -/
def main (M E : Nat) (w : List Byte) (probe : Nat) (r1 r2 r3 : Nat → Bool) : C (Option T) :=
  let t : T := ⟨ssa_init M, List.replicate (M * E) 0, List.replicate M none⟩
  andThen (loop (first M E w r1) M 0 t) fun t =>
  andThen (loop (again M E w r2) M 0 t) fun t =>
  andThen (loop (drop M E r3) M 0 t) fun t =>
  andThen (loop (again M E w fun _ => true) M 0 t) fun t =>
  andThen (check (t.pool.avail == 0) t) fun t =>
  andThen (check (t.pool.top == M) t) fun t =>
  andThen (loop (checkPtr E w) M 0 t) fun t =>
  andThen (loop (checkBit true none) M 0 t) fun t => do
    match ← ptrAt t probe with
    | none => .error .nullDeref
    | some a =>
      let idx := ssa_getidx E a
      andThen (check (decide (idx ≥ 0)) t) fun t =>
      andThen (check (decide (idx < M)) t) fun t =>
      andThen (ssnull M E probe a t) fun t =>
      andThen (check (t.pool.avail == 1) t) fun t =>
      andThen (loop (checkBit true (some idx.toNat)) M 0 t) fun t =>
      andThen (loop (drop M E fun _ => true) M 0 t) fun t =>
      andThen (check (t.pool.avail == M) t) fun t =>
      andThen (check (t.pool.top == 0) t) fun t =>
      loop (checkBit false none) M 0 t

end Ulz.Ssalloc

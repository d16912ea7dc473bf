import Verif.Model.Bitarray
/-! Model of include/ssalloc.c, the single size stack allocator. `M` is SSA_MAXELEM and `E` is SSA_ELEMSIZE, both positive
    int constants. The macro SSA_MAXLEN that selects SSA_COMPARETYPE (lines 38-54) is never defined, so
    the type is uint8_t. DEBUG is not defined. Pointers are offsets from the start of `mem`; the difference of a foreign
    pointer and `mem` is taken to be the difference of the addresses. `M` is at most 2^31 - 1, so nothing wraps. -/
namespace Ulz.Ssalloc
open Ulz.Bitarray

/-- include/ssalloc.c:29-34: the management part of the pool; `mem` is the memory handed out. -/
structure Pool where
  used : List Byte
  top : Nat
  avail : Nat
  deriving DecidableEq, Repr

/-- include/ssalloc.c:63-65. -/
def ssa_getaddr (E elem : Nat) : Nat := elem * E

/-- include/ssalloc.c:67-71. -/
def ssa_set (E : Nat) (p : Pool) (elem : Nat) : C (Pool × Option Nat) := do
  let u ← BA_SET_TRUE p.used elem
  pure (⟨u, p.top, sztSub p.avail 1⟩, some (ssa_getaddr E elem))

/-- include/ssalloc.c:73-76: `ptr - p->mem` is `d`; C's `/` and `%` truncate towards zero. -/
def ssa_getidx (E : Nat) (d : Int) : Int := if d.tmod E ≠ 0 then -1 else d.tdiv E

/-- include/ssalloc.c:88-90: the inner loop over the bits `i` to `n - 1`: the first that is not set. -/
def findBit (p : Pool) : (fuel i n : Nat) → C (Option Nat)
  | 0, _, _ => .error .hang
  | fuel + 1, i, n => do
    if i < n then
      if ← BA_GET p.used i then findBit p fuel (i + 1) n else pure (some i)
    else pure none

/-- include/ssalloc.c:86-91: the loop over the bytes. -/
def findByte (M : Nat) (p : Pool) : (fuel b : Nat) → C (Option Nat)
  | 0, _ => .error .hang
  | fuel + 1, b => do
    if b < M / 8 then
      if (← rd p.used b) ≠ 255 then
        match ← findBit p 9 (8 * b) (8 * (b + 1)) with
        | some i => pure (some i)
        | none => findByte M p fuel (b + 1)
      else findByte M p fuel (b + 1)
    else pure none

/-- include/ssalloc.c:78-94. -/
def ssa_alloc (M E : Nat) (p : Pool) (size : Nat) : C (Pool × Option Nat) := do
  if size > E then pure (p, none)
  else if p.top < M then ssa_set E { p with top := p.top + 1 } p.top
  else if p.avail ≠ 0 then
    match ← findByte M p (M / 8 + 1) 0 with
    | some i => ssa_set E p i
    | none => pure (p, none)
  else pure (p, none)

/-- include/ssalloc.c:106: the loop. -/
def shrink (u : List Byte) : (top : Nat) → C Nat
  | 0 => pure 0
  | top + 1 => do if ← BA_GET u top then pure (top + 1) else shrink u top

/-- include/ssalloc.c:98: `BA_GET` of an index that may be negative: then either the shift count is negative or the byte is
    outside the array. -/
def getIdx (u : List Byte) (idx : Int) : C Bool := if idx < 0 then .error .oobRead else BA_GET u idx.toNat

/-- include/ssalloc.c:96-107; `d` is the offset of the pointer. -/
def ssa_free (M E : Nat) (p : Pool) (d : Int) : C Pool := do
  let idx := ssa_getidx E d
  if idx = -1 ∨ idx ≥ M then pure p
  else if ← getIdx p.used idx then
    let u ← BA_SET_FALSE p.used idx.toNat
    pure ⟨u, ← shrink u p.top, p.avail + 1⟩
  else pure p

/-- include/ssalloc.c:109-112. -/
def ssa_init (M : Nat) : Pool := ⟨List.replicate (BA_SIZE_REQUIRED M) 0, 0, M⟩

/-! ### Histories -/

/-- A call. -/
inductive Op where
  | alloc (size : Nat)
  | free (d : Int)
  deriving DecidableEq, Repr

/-- One call: the pool, and what `ssa_alloc` returned (`free` returns nothing). -/
def step (M E : Nat) (p : Pool) : Op → C (Pool × Option Nat)
  | .alloc size => ssa_alloc M E p size
  | .free d => do pure (← ssa_free M E p d, none)

/-- A history of calls. -/
def run (M E : Nat) (p : Pool) : List Op → C (Pool × List (Option Nat))
  | [] => pure (p, [])
  | o :: os => do
    let (p, r) ← step M E p o
    let (p, rs) ← run M E p os
    pure (p, r :: rs)

end Ulz.Ssalloc

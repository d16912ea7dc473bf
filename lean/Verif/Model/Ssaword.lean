import Verif.Model.Ssalloc
/-! Model of include/ssalloc.c for every setting of its macros: `M` is SSA_MAXELEM, `E` is SSA_ELEMSIZE, `k` the size in bytes of
SSA_COMPARETYPE, which is the type of the words in which `used` is searched. That `used` is an array of characters and accessed as words is
not counted as undefined behaviour; whether the accesses are aligned is stated by their addresses. -/
namespace Ulz.Ssaword
open Ulz.Bitarray Ulz.Ssalloc

/-- include/ssalloc.c:38: whether the preprocessor stops with "SSA_MAXELEM must be a power of 2". `!=` binds tighter than `&`; the
    comparison is 1 or 0. -/
def rejected (M : Nat) : Bool := M &&& (if -(M : Int) ≠ (M : Int) then 1 else 0) ≠ 0

/-- include/ssalloc.c:40-54: the size of SSA_COMPARETYPE, by the value of SSA_MAXLEN; a macro that is not defined counts as 0. -/
def wordBytes (maxlen : Option Nat) : Nat :=
  let n := maxlen.getD 0
  if n > 1024 then 8 else if n ≤ 128 then 1 else if n ≤ 512 then 2 else 4

/-- include/ssalloc.c:86-91: the loop over the words; all bits of a word are set if all its bytes are 255. -/
def findWord (k M : Nat) (p : Pool) : (fuel b : Nat) → C (Option Nat)
  | 0, _ => .error .hang
  | fuel + 1, b => do
    if b < M / (8 * k) then
      if (← rdN p.used (k * b) k) ≠ List.replicate k 255 then
        match ← findBit p (8 * k + 1) (8 * k * b) (8 * k * (b + 1)) with
        | some i => pure (some i)
        | none => findWord k M p fuel (b + 1)
      else findWord k M p fuel (b + 1)
    else pure none

/-- include/ssalloc.c:87: the address of word number `b`, when the pool is at `A`. -/
def wordAddr (k M E A b : Nat) : Nat := A + M * E + k * b

/-- include/ssalloc.c:78-94. -/
def ssa_alloc (k M E : Nat) (p : Pool) (size : Nat) : C (Pool × Option Nat) := do
  if size > E then pure (p, none)
  else if p.top < M then ssa_set E { p with top := p.top + 1 } p.top
  else if p.avail ≠ 0 then
    match ← findWord k M p (M / (8 * k) + 1) 0 with
    | some i => ssa_set E p i
    | none => pure (p, none)
  else pure (p, none)

/-- One call (include/ssalloc.c:78-107). -/
def step (k M E : Nat) (p : Pool) : Op → C (Pool × Option Nat)
  | .alloc size => ssa_alloc k M E p size
  | .free d => do pure (← ssa_free M E p d, none)

/-- A history of calls (include/ssalloc.c:78-107). -/
def run (k M E : Nat) (p : Pool) : List Op → C (Pool × List (Option Nat))
  | [] => pure (p, [])
  | o :: os => do
    let (p, r) ← step k M E p o
    let (p, rs) ← run k M E p os
    pure (p, r :: rs)

/-! ### SSA_ELEMSIZE defined as a sum without parentheses, `a + b` -/

/-- include/ssalloc.c:30: the size of `mem`, `SSA_MAXELEM * a + b`. -/
def sumMem (M a b : Nat) : Nat := M * a + b

/-- include/ssalloc.c:63-65: `elem * a + b`. -/
def sumAddr (a b elem : Nat) : Nat := elem * a + b

/-- include/ssalloc.c:73-76: `% a + b` and `/ a + b`. -/
def sumIdx (a b : Nat) (d : Int) : Int := if d.tmod a + b ≠ 0 then -1 else d.tdiv a + b

/-- include/ssalloc.c:67-71 and 78-94 with `a + b`, words of `k` bytes. -/
def sumAlloc (k M a b : Nat) (p : Pool) (size : Nat) : C (Pool × Option Nat) := do
  let set := fun (p : Pool) (elem : Nat) => do
    let u ← BA_SET_TRUE p.used elem
    pure ((⟨u, p.top, sztSub p.avail 1⟩ : Pool), some (sumAddr a b elem))
  if size > a + b then pure (p, none)
  else if p.top < M then set { p with top := p.top + 1 } p.top
  else if p.avail ≠ 0 then
    match ← findWord k M p (M / (8 * k) + 1) 0 with
    | some i => set p i
    | none => pure (p, none)
  else pure (p, none)

/-- include/ssalloc.c:96-107 with `a + b`. -/
def sumFree (M a b : Nat) (p : Pool) (d : Int) : C Pool := do
  let idx := sumIdx a b d
  if idx = -1 ∨ idx ≥ M then pure p
  else if ← getIdx p.used idx then
    let u ← BA_SET_FALSE p.used idx.toNat
    pure ⟨u, ← shrink u p.top, p.avail + 1⟩
  else pure p

end Ulz.Ssaword

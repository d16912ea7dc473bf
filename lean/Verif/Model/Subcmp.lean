import Verif.Model.Bmap
/-! Comparison of integers by subtraction, as the tests and examples do it, and tglist and bmap with a comparison function that may
    itself be undefined for some arguments. -/
namespace Ulz.Subcmp
open Ulz.Tglist (TG)
open Ulz.Bmap (BM Op Res)

/-- The `int` in four bytes (little endian). -/
def val (x : List Byte) : Int := (BitVec.ofNat 32 (Tglist.leVal x)).toInt

/-- tests/tglist_insert_test.c:4-8, tests/tgilist_insert_test.c:5-9, tests/bmap_bench.c:105-109, tests/hbmap_bench.c:114-118,
    examples/codedup.c:23-27: `return *a - *b`. -/
def intcmp (a b : List Byte) : C Int :=
  let d := val a - val b
  if -2147483648 ≤ d ∧ d ≤ 2147483647 then pure d else .error .overflow

/-- The same compiled with wrapping arithmetic (-fwrapv). -/
def intcmpW (a b : List Byte) : Int := (val a - val b).bmod (2^32)

/-- include/tglist.h:186-198 with a comparison function that may be undefined. -/
def sortedPos (isz : Nat) (l : TG) (o : List Byte) (compar : List Byte → List Byte → C Int) : (fuel hi lo : Nat) → C Nat
  | 0, _, _ => .error .hang
  | fuel + 1, hi, lo => do
    let c := hi + (lo - hi) / 2
    let p ← Tglist.get isz l c
    let r ← compar o p
    if hi = lo then
      pure (if r > 0 then lo + 1 else lo)
    else
      let (hi, lo) :=
        if r < 0 then (hi, if c ≠ 0 then c - 1 else 0)
        else if r > 0 then (c + 1, lo)
        else (c, c)
      let hi := if hi > lo then lo else hi
      sortedPos isz l o compar fuel hi lo

/-- include/tglist.h:179-199. -/
def sortedIndex (isz : Nat) (l : TG) (o : List Byte) (compar : List Byte → List Byte → C Int) : C Nat :=
  if l.count = 0 then pure 0 else sortedPos isz l o compar (l.count + 1) 0 (l.count - 1)

/-- include/tglist.h:151-153, 201-206. -/
def insert_sorted (isz : Nat) (a : Alloc) (l : TG) (o : List Byte) (compar : List Byte → List Byte → C Int) : C (TG × Option Nat) := do
  let lo ← sortedIndex isz l o compar
  let (l, ok) ← Tglist.insert isz a l o lo
  if ok ≠ 0 then pure (l, some lo) else pure (l, none)

/-- What a map is instantiated with: as `Bmap.Cfg`, but the comparison function, and so `bsearch`, may be undefined. -/
structure Cfg where
  ksz : Nat
  vsz : Nat
  cmp : List Byte → List Byte → C Int
  bs : List Byte → List (List Byte) → (List Byte → List Byte → C Int) → C (Option Nat)

/-- include/bmap.h:112-113, 149-154. -/
def find (c : Cfg) (b : BM) (key : List Byte) : C (Option Nat) := do
  let xs ← Bmap.keysList c.ksz b.keys
  c.bs key xs c.cmp

/-- include/bmap.h:118-121. -/
def get (c : Cfg) (b : BM) (key : List Byte) : C (Option (List Byte)) := do
  match ← find c b key with
  | none => pure none
  | some i => do pure (some (← Tglist.get c.vsz b.values i))

/-- include/bmap.h:126-133. -/
def insert_nocheck (c : Cfg) (a1 a2 : Alloc) (b : BM) (key val : List Byte) : C (BM × Option Nat × Option Nat) := do
  let (ks, p) ← insert_sorted c.ksz a1 b.keys key c.cmp
  match p with
  | none => pure ({ b with keys := ks }, none, none)
  | some p => do
    let (vs, ok) ← Tglist.insert c.vsz a2 b.values val p
    if ok ≠ 0 then pure (⟨ks, vs⟩, some p, some p)
    else do
      let ks ← Tglist.delete c.ksz ks p
      pure (⟨ks, vs⟩, none, some p)

/-- include/bmap.h:137-141. -/
def insert (c : Cfg) (a1 a2 : Alloc) (b : BM) (key val : List Byte) : C (BM × Option Nat) := do
  match ← find c b key with
  | none => do
    let (b, _, ss) ← insert_nocheck c a1 a2 b key val
    pure (b, ss)
  | some i => do
    let (vs, _) ← Tglist.set c.vsz b.values val i
    pure ({ b with values := vs }, some i)

/-- include/bmap.h:143-147. -/
def delete (c : Cfg) (b : BM) (pos : Nat) : C BM := do
  let ks ← Tglist.delete c.ksz b.keys pos
  let vs ← Tglist.delete c.vsz b.values pos
  pure ⟨ks, vs⟩

/-- One call: the map and what it returned. -/
def step (c : Cfg) (b : BM) : Op → C (BM × Res)
  | .insert k v a1 a2 => do
    let (b, r) ← insert c a1 a2 b k v
    pure (b, .idx r)
  | .get k => do pure (b, .item (← get c b k))
  | .contains k => do pure (b, .bool (← find c b k).isSome)
  | .del k => do
    match ← find c b k with
    | none => pure (b, .bool false)
    | some i => do pure (← delete c b i, .bool true)

/-- A history of calls. -/
def run (c : Cfg) (b : BM) : List Op → C (BM × List Res)
  | [] => pure (b, [])
  | op :: ops => do
    let (b, r) ← step c b op
    let (b, rs) ← run c b ops
    pure (b, r :: rs)

end Ulz.Subcmp

import Verif.Model.Strmap
import Verif.Model.Ibmap
import Verif.Spec.Numbers
/-! The benchmark programs tests/bmap_bench.c and tests/hbmap_bench.c (without `USE_KHASH`). Both consist of the same loops, once over a
    bmap and once over an hbmap, so the loops are modelled once, over the operations they call. The numbers `N_ITEMS` and `N_SEEKS`, the
    values of `rand()` and the addresses are arbitrary; `strdup` succeeds (the programs do not check it). `assert` that fails ends the
    program: result `none`. -/
namespace Ulz.Bench
open Ulz.Bmap (Cfg HCfg BM)
open Ulz.Strmap (Mem cfg)
open Ulz.Tglist (leBytes leVal)
open Ulz.Numbers.Spec (dec)

/-- Address of the array `buf` and of the copy that the i-th `strdup` returns. -/
structure Env where
  buf : Nat
  key : Nat → Nat

/-- The string `s` is stored at address `a`. -/
def put (μ : Mem) (a : Nat) (s : List Byte) : Mem := fun x => if x = a then s else μ x

/-- The bytes of the pointer `a` and of the `int` `i`. -/
def ptr (a : Nat) : List Byte := leBytes 8 a
/-- See `ptr`. -/
def int4 (i : Nat) : List Byte := leBytes 4 i

/-- The operations of a map that the loops call. -/
structure Api (σ : Type) where
  nocheck : Mem → Alloc → Alloc → σ → List Byte → List Byte → C σ
  contains : Mem → σ → List Byte → C Bool
  get : Mem → σ → List Byte → C (Option (List Byte))

/-- tests/bmap_bench.c:9-13, 69-70: `bmap(char*, int)` with `strstrcmp`. -/
def bapi (bs : List Byte → List (List Byte) → (List Byte → List Byte → Int) → Option Nat) : Api BM where
  nocheck μ a1 a2 b k v := do pure (← Bmap.insert_nocheck (cfg bs 4 μ) a1 a2 b k v).1
  contains μ b k := do pure (← Bmap.find (cfg bs 4 μ) b k).isSome
  get μ b k := Bmap.get (cfg bs 4 μ) b k

/-- tests/hbmap_bench.c:69-74, `char` being signed. -/
def x31 : List Byte → BitVec 32
  | [] => 0
  | a :: s =>
    let h := a.signExtend 32
    if h ≠ 0 then s.foldl (fun h c => (h <<< 5) - h + c.signExtend 32) h else h

/-- tests/hbmap_bench.c:78-79: `hbmap(char*, int, 256)` with `strstrcmp` and `__ac_X31_hash_string`. -/
def hcfg (bs : List Byte → List (List Byte) → (List Byte → List Byte → Int) → Option Nat) (μ : Mem) : HCfg :=
  { cfg bs 4 μ with hash := fun k => x31 (μ (leVal k)) }

/-- The operations of the hbmap. -/
def hapi (bs : List Byte → List (List Byte) → (List Byte → List Byte → Int) → Option Nat) : Api (List BM) where
  nocheck μ a1 a2 h k v := do pure (← Bmap.hinsert_nocheck (hcfg bs μ) a1 a2 h k v).1
  contains μ h k := do pure (!Bmap.isNone (← Bmap.hfind (hcfg bs μ) h k))
  get μ h k := Bmap.hget (hcfg bs μ) h k

variable {σ : Type} (A : Api σ) (e : Env) (al : Nat → (Nat → Byte) × (Nat → Byte))

/-- tests/bmap_bench.c:74-78, tests/hbmap_bench.c:83-87, from `i` on, `n` rounds; `al` gives the memory that growing the arrays
    finds. -/
def fill : (n i : Nat) → Mem → σ → C (Mem × σ)
  | 0, _, μ, s => pure (μ, s)
  | n + 1, i, μ, s => do
    let μ := put μ e.buf (dec i)
    let μ := put μ (e.key i) (μ e.buf)
    let s ← A.nocheck μ (some (al i).1) (some (al i).2) s (ptr (e.key i)) (int4 i)
    fill n (i + 1) μ s

/-- tests/bmap_bench.c:85-89, tests/hbmap_bench.c:94-98. -/
def check : (n i : Nat) → Mem → σ → C (Option Mem)
  | 0, _, μ, _ => pure (some μ)
  | n + 1, i, μ, s => do
    let μ := put μ e.buf (dec i)
    if ← A.contains μ s (ptr e.buf) then check n (i + 1) μ s else pure none

/-- tests/bmap_bench.c:91-98, tests/hbmap_bench.c:100-107, `vals` being the values of `rand()%N_ITEMS`. The values read are not negative;
    `res` is an `int`. -/
def seek : (vals : List Nat) → (res : Nat) → Mem → σ → C Nat
  | [], res, _, _ => pure res
  | v :: vals, res, μ, s => do
    let μ := put μ e.buf (dec v)
    match ← A.get μ s (ptr e.buf) with
    | none => .error .nullDeref
    | some x => if res + leVal x < 2^31 then seek vals (res + leVal x) μ s else .error .overflow

/-- tests/bmap_bench.c:68-102. `ka` and `va` are the addresses of the arrays of the map at its end, `live` the addresses allocated
    then. Result: what is returned, and what is still allocated. -/
def test_bmap (bs : List Byte → List (List Byte) → (List Byte → List Byte → Int) → Option Nat)
    (N : Nat) (vals : List Nat) (μ : Mem) (ka va : Nat) (live : List Nat) : C (Option (Nat × List Nat)) := do
  let (μ, b) ← fill (bapi bs) e al N 0 μ Bmap.init
  let μ := put μ e.buf (dec 0)
  let μ := put μ (e.key N) (μ e.buf)
  let (b, r) ← Bmap.insert (cfg bs 4 μ) (some (al N).1) (some (al N).2) b (ptr (e.key N)) (int4 0)
  if r = some 0 then
    match ← check (bapi bs) e N 0 μ b with
    | none => pure none
    | some μ => do
      let res ← seek (bapi bs) e vals 0 μ b
      let live ← Ibmap.fini (cfg bs 4 μ) b ka va 1 live
      pure (some (res, live))
  else pure none

/-- include/hbmap.h:80-83: `arrs` are the addresses of the arrays of the buckets. -/
def hfini (c : Cfg) (flags : Nat) : List BM → List (Nat × Nat) → List Nat → C (List Nat)
  | [], _, live => pure live
  | _ :: _, [], _ => .error .oobRead
  | b :: h, a :: arrs, live => do
    let live ← Ibmap.fini c b a.1 a.2 flags live
    hfini c flags h arrs live

/-- tests/hbmap_bench.c:77-111, with `nb` buckets (256 in the program). -/
def test_hbmap (bs : List Byte → List (List Byte) → (List Byte → List Byte → Int) → Option Nat)
    (nb N : Nat) (vals : List Nat) (μ : Mem) (arrs : List (Nat × Nat)) (live : List Nat) : C (Option (Nat × List Nat)) := do
  let (μ, h) ← fill (hapi bs) e al N 0 μ (Bmap.hinit nb)
  let μ := put μ e.buf (dec 0)
  let μ := put μ (e.key N) (μ e.buf)
  match ← check (hapi bs) e N 0 μ h with
  | none => pure none
  | some μ => do
    let res ← seek (hapi bs) e vals 0 μ h
    let live ← hfini (hcfg bs μ).toCfg 1 h arrs live
    pure (some (res, live))

end Ulz.Bench

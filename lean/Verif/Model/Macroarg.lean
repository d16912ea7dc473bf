import Verif.Model.Bmap
import Verif.Model.Ibmap
/-! The macros of tglist.h, bmap.h, hbmap.h and macros.h with arguments that have side effects, such as `keys[i++]`: an argument is an
    expression over the state `σ` of the caller, evaluated wherever the macro contains it. The caller's state does not include the list or map. -/
namespace Ulz.Macroarg
open Ulz.Tglist (TG)
open Ulz.Bmap (Cfg HCfg BM Iter)

/-- A C expression: its value and the state after it; it may have undefined behaviour. -/
abbrev Ex (σ α : Type) := σ → C (α × σ)

variable {σ : Type}

/-- include/tglist.h:106-114: `tglist_add(X, ITEM)`. -/
def tgAdd (isz : Nat) (a : Alloc) (l : TG) (item : Ex σ (List Byte)) (s : σ) : C (TG × Nat × σ) :=
  let (l, ok) := Tglist.grow_if_needed isz a l
  if ok = 0 then pure (l, 0, s)
  else do
    let l := { l with count := l.count + 1 }
    let (x, s) ← item s
    let (l, r) ← Tglist.set isz l x (l.count - 1)
    pure (l, r, s)

/-- include/tglist.h:125-131: `tglist_insert(X, ITEM, POS)`. -/
def tgInsert (isz : Nat) (a : Alloc) (l : TG) (item : Ex σ (List Byte)) (pos : Ex σ Nat) (s : σ) : C (TG × Nat × σ) := do
  let (p, s) ← pos s
  let (l, ok) := Tglist.grow_if_needed isz a l
  if ok = 0 then pure (l, 0, s)
  else do
    let l ← Tglist.memmove_impl isz l (p + 1) (-1)
    let (x, s) ← item s
    let (l, r) ← Tglist.set isz { l with count := l.count + 1 } x p
    pure (l, r, s)

/-- include/bmap.h:112-113: `bmap_find(X, KEY)`; `none` is -1. -/
def bmFind (c : Cfg) (b : BM) (key : Ex σ (List Byte)) (s : σ) : C (Option Nat × σ) := do
  let (k, s) ← key s
  pure (← Bmap.find c b k, s)

/-- include/bmap.h:126-133: `bmap_insert_nocheck(X, KEY, VAL)`; result: the map, the value of the expression, `tmp.ss`, the state. -/
def bmInsertNocheck (c : Cfg) (a1 a2 : Alloc) (b : BM) (key val : Ex σ (List Byte)) (s : σ) : C (BM × Option Nat × Option Nat × σ) := do
  let (k, s) ← key s
  let (ks, p) ← Tglist.insert_sorted c.ksz a1 b.keys k c.cmp
  match p with
  | none => pure ({ b with keys := ks }, none, none, s)
  | some p => do
    let (vs, ok, s) ← tgInsert c.vsz a2 b.values val (fun s => pure (p, s)) s
    if ok ≠ 0 then pure (⟨ks, vs⟩, some p, some p, s)
    else do
      let ks ← Tglist.delete c.ksz ks p
      pure (⟨ks, vs⟩, none, some p, s)

/-- include/bmap.h:137-141: `bmap_insert(X, KEY, VAL)`. -/
def bmInsert (c : Cfg) (a1 a2 : Alloc) (b : BM) (key val : Ex σ (List Byte)) (s : σ) : C (BM × Option Nat × σ) := do
  let (i, s) ← bmFind c b key s
  match i with
  | none => do
    let (b, _, ss, s) ← bmInsertNocheck c a1 a2 b key val s
    pure (b, ss, s)
  | some i => do
    let (v, s) ← val s
    let (vs, _) ← Tglist.set c.vsz b.values v i
    pure ({ b with values := vs }, some i, s)

/-- include/bmap.h:143-147: `bmap_delete(X, POS)`: `tmp.ss = POS`, then POS again for the keys and again for the values. -/
def bmDelete (c : Cfg) (b : BM) (pos : Ex σ Nat) (s : σ) : C (BM × σ) := do
  let (_, s) ← pos s
  let (p, s) ← pos s
  let ks ← Tglist.delete c.ksz b.keys p
  let (p, s) ← pos s
  let vs ← Tglist.delete c.vsz b.values p
  pure (⟨ks, vs⟩, s)

/-- include/hbmap.h:139-145: `hbmap_find(X, KEY)`: KEY for the hash function, then for the search in the bucket. -/
def hbFind (c : HCfg) (h : List BM) (key : Ex σ (List Byte)) (s : σ) : C (Iter × σ) := do
  let (k, s) ← key s
  let it := Bmap.makeBucket (← Bmap.buckindex c h k)
  let b ← Bmap.bucket h (Bmap.iterBucket it)
  let (r, s) ← bmFind c.toCfg b key s
  pure (it ||| Bmap.idx64 r, s)

/-- include/hbmap.h:157-160: `hbmap_insert_nocheck(X, KEY, VAL)`. -/
def hbInsertNocheck (c : HCfg) (a1 a2 : Alloc) (h : List BM) (key val : Ex σ (List Byte)) (s : σ) : C (List BM × Iter × σ) := do
  let (k, s) ← key s
  let it := Bmap.makeBucket (← Bmap.buckindex c h k)
  let b ← Bmap.bucket h (Bmap.iterBucket it)
  let (b, r, _, s) ← bmInsertNocheck c.toCfg a1 a2 b key val s
  pure (h.set (Bmap.iterBucket it) b, it ||| Bmap.idx64 r, s)

/-- include/hbmap.h:164-167: `hbmap_insert(X, KEY, VAL)`. -/
def hbInsert (c : HCfg) (a1 a2 : Alloc) (h : List BM) (key val : Ex σ (List Byte)) (s : σ) : C (List BM × Iter × σ) := do
  let (it, s) ← hbFind c h key s
  if Bmap.isNone it then hbInsertNocheck c a1 a2 h key val s
  else do
    let (v, s) ← val s
    pure (← Bmap.hsetvalue c h v it, it, s)

/-- include/macros.h:5: `MIN(x, y)`; `x` and `y` have states of their own, so that it does not matter which is evaluated first. -/
def MIN {τ : Type} (x : Ex σ Int) (y : Ex τ Int) (s : σ) (t : τ) : C (Int × σ × τ) := do
  let (a, s) ← x s
  let (b, t) ← y t
  if a < b then do
    let (a, s) ← x s
    pure (a, s, t)
  else do
    let (b, t) ← y t
    pure (b, s, t)

/-- include/macros.h:9: `MAX(x, y)`. -/
def MAX {τ : Type} (x : Ex σ Int) (y : Ex τ Int) (s : σ) (t : τ) : C (Int × σ × τ) := do
  let (a, s) ← x s
  let (b, t) ← y t
  if a > b then do
    let (a, s) ← x s
    pure (a, s, t)
  else do
    let (b, t) ← y t
    pure (b, s, t)

/-! ### A caller's loop -/

/-- `a[i++]` for an array of `a.length` elements. -/
def next (a : List (List Byte)) : Ex Nat (List Byte) := fun i =>
  match a[i]? with
  | some x => .ok (x, i + 1)
  | none => .error .oobRead

/-- `size_t i = 0, j = 0; while(i < n) bmap_insert(map, keys[i++], vals[j++]);` with all memory granted: `f` are the bytes the allocator gives. -/
def insertAll (c : Cfg) (f : Nat → Byte) (keys vals : List (List Byte)) (n : Nat) : (fuel : Nat) → BM → Nat × Nat → C (BM × (Nat × Nat))
  | 0, _, _ => .error .hang
  | fuel + 1, b, s =>
    if s.1 < n then do
      let (b, _, s) ← bmInsert c (some f) (some f) b
        (fun s => do let (k, i) ← next keys s.1; pure (k, (i, s.2)))
        (fun s => do let (v, j) ← next vals s.2; pure (v, (s.1, j))) s
      insertAll c f keys vals n fuel b s
    else pure (b, s)

/-! ### FREEFLAGS -/

/-- What a caller may write for FREEFLAGS: a number or variable, `(e)`, `a | b` and `c ? a : b`. -/
inductive Flags where
  | num (n : Nat)
  | paren (e : Flags)
  | or (a b : Flags)
  | cond (c : Nat) (a b : Flags)

/-- The value the caller means. -/
def Flags.value : Flags → Nat
  | .num n => n
  | .paren e => e.value
  | .or a b => a.value ||| b.value
  | .cond c a b => if c ≠ 0 then a.value else b.value

/-- include/bmap.h:97-98: the value of `FREEFLAGS & m`, where FREEFLAGS is replaced by its text: `&` binds stronger than `|` and `?:`. -/
def Flags.andWith (m : Nat) : Flags → Nat
  | .num n => n &&& m
  | .paren e => e.value &&& m
  | .or a b => a.value ||| b.andWith m
  | .cond c a b => if c ≠ 0 then a.value else b.andWith m

/-- include/bmap.h:96-101: `bmap_fini(X, FREEFLAGS)`; `ka`, `va` are the addresses of the two arrays. -/
def bmFini (c : Cfg) (b : BM) (ka va : Nat) (e : Flags) (live : List Nat) : C (List Nat) := do
  let live ← Ibmap.freeIf (e.andWith 1) c.ksz b.keys live
  let live ← Ibmap.freeIf (e.andWith 2) c.vsz b.values live
  let live ← Tglist.hfree live ka
  Tglist.hfree live va

end Ulz.Macroarg

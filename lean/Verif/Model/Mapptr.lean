import Verif.Model.Held
import Verif.Model.Ibmap
/-! Model of what becomes of pointers to the values of a map, and to the items of a tgilist, that the caller keeps while calling on. The
containers are those of Model/Bmap.lean, Model/Ibmap.lean and Model/Tglist.lean; beside them runs a count of the buffers their values have
had. -/
namespace Ulz.Mapptr
open Ulz.Tglist (TG TGI)
open Ulz.Bmap (BM Cfg HCfg)
open Ulz.Ibmap (BMI)
open Ulz.Held (Ptr)
open Ulz.Alias (A Fault lift)

/-- The number of the buffer of `new`, if the buffer of `old` had the number `n`. include/tglist.h:159-170: `realloc` is called only here,
    and if it succeeds, and only then, the capacity is changed, from 0 to 4 or to its double. A successful `realloc` ends the life of the old
    buffer, also if the new one is at the same address (ISO C 7.22.3.5). -/
def nextBuf (old new : TG) (n : Nat) : Nat := if new.capa = old.capa then n else n + 1

/-- A read of `sz` bytes through a pointer into the buffer of `l`, the list's buffer number `n` (the expression of include/tglist.h:96,
    dereferenced by the caller). -/
def deref (l : TG) (n sz : Nat) (p : Ptr) : A (List Byte) :=
  if p.buf ≠ n then .error .freed else lift (rdN l.items p.off sz)

/-- A write of the bytes `x` through it (include/tglist.h:96, assigned to by the caller). -/
def assign (l : TG) (n : Nat) (p : Ptr) (x : List Byte) : A TG :=
  if p.buf ≠ n then .error .freed
  else lift do
    let items ← wrN l.items p.off x
    pure { l with items := items }

/-! ### tgilist -/

/-- include/tgilist.h:30-34, and how often `realloc` has given the items another buffer. -/
structure HTGI where
  l : TGI
  buf : Nat
  deriving DecidableEq, Repr

/-- One call (include/tgilist.h:57-80). -/
def istep (w isz : Nat) (s : HTGI) (op : Tglist.IOp) : C (HTGI × Tglist.Res) := do
  let (l, r) ← Tglist.istep w isz s.l op
  pure (⟨l, nextBuf s.l.items l.items s.buf⟩, r)

/-- A history of such calls (include/tgilist.h:57-80). -/
def irun (w isz : Nat) (s : HTGI) : List Tglist.IOp → C (HTGI × List Tglist.Res)
  | [] => pure (s, [])
  | op :: ops => do
    let (s, r) ← istep w isz s op
    let (s, rs) ← irun w isz s ops
    pure (s, r :: rs)

/-- include/tgilist.h:57: the pointer `&tgilist_get(l, i)`. -/
def iptr (w isz : Nat) (s : HTGI) (i : Nat) : C Ptr := do
  pure ⟨s.buf, szt ((← Tglist.iidx w s.l i) * isz)⟩

/-- The caller reads an item through a pointer it holds (taken as in include/tgilist.h:57). -/
def iread (isz : Nat) (s : HTGI) (p : Ptr) : A (List Byte) := deref s.l.items s.buf isz p

/-! ### bmap -/

/-- include/bmap.h:60-70, and how often `realloc` has given the values another buffer. -/
structure HBM where
  b : BM
  buf : Nat
  deriving DecidableEq, Repr

/-- One call (include/bmap.h:107-154). -/
def step (c : Cfg) (s : HBM) (op : Bmap.Op) : C (HBM × Bmap.Res) := do
  let (b, r) ← Bmap.step c s.b op
  pure (⟨b, nextBuf s.b.values b.values s.buf⟩, r)

/-- A history of such calls (include/bmap.h:107-154). -/
def run (c : Cfg) (s : HBM) : List Bmap.Op → C (HBM × List Bmap.Res)
  | [] => pure (s, [])
  | op :: ops => do
    let (s, r) ← step c s op
    let (s, rs) ← run c s ops
    pure (s, r :: rs)

/-- include/bmap.h:118-121: the pointer `bmap_get` returns, `none` for NULL; include/tglist.h:96 for the address of the value. -/
def getp (c : Cfg) (s : HBM) (key : List Byte) : C (Option Ptr) := do
  match ← Bmap.find c s.b key with
  | none => pure none
  | some i => pure (some ⟨s.buf, szt (i * c.vsz)⟩)

/-- The caller reads a value through a pointer `bmap_get` (include/bmap.h:118-121) returned. -/
def vread (c : Cfg) (s : HBM) (p : Ptr) : A (List Byte) := deref s.b.values s.buf c.vsz p

/-! ### hbmap -/

/-- include/hbmap.h:27-34, and for every bucket how often `realloc` has given its values another buffer. -/
structure HHB where
  h : List BM
  buf : Nat → Nat

/-- The values of bucket `j` (include/hbmap.h:33). -/
def vals (h : List BM) (j : Nat) : TG := match h[j]? with | some b => b.values | none => Tglist.init

/-- One call (include/hbmap.h:127-170). -/
def hstep (c : HCfg) (s : HHB) (op : Bmap.Op) : C (HHB × Bmap.HRes) := do
  let (h, r) ← Bmap.hstep c s.h op
  pure (⟨h, fun j => nextBuf (vals s.h j) (vals h j) (s.buf j)⟩, r)

/-- A history of such calls (include/hbmap.h:127-170). -/
def hrun (c : HCfg) (s : HHB) : List Bmap.Op → C (HHB × List Bmap.HRes)
  | [] => pure (s, [])
  | op :: ops => do
    let (s, r) ← hstep c s op
    let (s, rs) ← hrun c s ops
    pure (s, r :: rs)

/-- A pointer to a value: into the values of which bucket (include/hbmap.h:130-131), and where there. -/
structure HPtr where
  bucket : Nat
  p : Ptr
  deriving DecidableEq, Repr

/-- include/hbmap.h:150-152: the pointer `hbmap_get` returns, `none` for NULL. -/
def hgetp (c : HCfg) (s : HHB) (key : List Byte) : C (Option HPtr) := do
  let it ← Bmap.hfind c s.h key
  if Bmap.isNone it then pure none
  else do
    let _ ← Bmap.bucket s.h (Bmap.iterBucket it)
    pure (some ⟨Bmap.iterBucket it, ⟨s.buf (Bmap.iterBucket it), szt (Bmap.iterIndex it * c.vsz)⟩⟩)

/-- The caller reads a value through a pointer `hbmap_get` (include/hbmap.h:150-152) returned. -/
def hread (c : HCfg) (s : HHB) (p : HPtr) : A (List Byte) := deref (vals s.h p.bucket) (s.buf p.bucket) c.vsz p.p

/-! ### bmap with `BMAP_USE_TGILIST` -/

/-- include/bmap.h:60-70 with the value list of include/bmap.h:45-52, and how often `realloc` has given the values another buffer. -/
structure HBMI where
  b : BMI
  buf : Nat
  deriving DecidableEq, Repr

/-- One call (include/bmap.h:107-154). -/
def xstep (c : Cfg) (s : HBMI) (op : Ibmap.Op) : C (HBMI × Bmap.Res) := do
  let (b, r) ← Ibmap.step c s.b op
  pure (⟨b, nextBuf s.b.values.items b.values.items s.buf⟩, r)

/-- A history of such calls (include/bmap.h:107-154). -/
def xrun (c : Cfg) (s : HBMI) : List Ibmap.Op → C (HBMI × List Bmap.Res)
  | [] => pure (s, [])
  | op :: ops => do
    let (s, r) ← xstep c s op
    let (s, rs) ← xrun c s ops
    pure (s, r :: rs)

/-- include/bmap.h:118-121: the pointer `bmap_get` returns, `none` for NULL; include/tgilist.h:57 for the address of the value. -/
def xgetp (c : Cfg) (s : HBMI) (key : List Byte) : C (Option Ptr) := do
  match ← Ibmap.find c s.b key with
  | none => pure none
  | some i => do pure (some ⟨s.buf, szt ((← Tglist.iidx Ibmap.W s.b.values i) * c.vsz)⟩)

/-- The caller reads a value through a pointer `bmap_get` (include/bmap.h:118-121) returned. -/
def xread (c : Cfg) (s : HBMI) (p : Ptr) : A (List Byte) := deref s.b.values.items s.buf c.vsz p

/-- The caller writes a value through it (include/bmap.h:118-121). -/
def xwrite (s : HBMI) (p : Ptr) (x : List Byte) : A HBMI := do
  let t ← assign s.b.values.items s.buf p x
  pure { s with b := { s.b with values := { s.b.values with items := t } } }

end Ulz.Mapptr

import Verif.Model.Bmap
/-! Model of threads that look up keys in one map at the same time. Nothing is inserted or deleted; but the lookup macros write to the member
`tmp` of the map (include/bmap.h:65-69, include/hbmap.h:30-32). Every access to `tmp` is one step; steps of different threads follow each
other in any order and are atomic (by ISO C the accesses are a data race and undefined, so this is the best case). A key that is looked up
stays in memory at its address while other threads may still use it. -/
namespace Ulz.Share
open Ulz.Bmap (BM Cfg HCfg Iter)

/-- The lookup macros: include/bmap.h:112-113, 115 and 118-121; include/hbmap.h:142-145, 147 and 150-152. -/
inductive LookOp where
  | find | contains | get
  deriving DecidableEq, Repr

/-- A call of one of them: the key, and its address as a number. -/
structure Call where
  op : LookOp
  key : List Byte
  addr : Nat
  deriving DecidableEq, Repr

/-- `f` with another value at `t`. -/
def upd {α : Type} (f : Nat → α) (t : Nat) (v : α) : Nat → α := fun u => if u = t then v else f u

/-! ### bmap -/

/-- What a call returns: an index or -1; a truth value; a pointer to the value with the index, or NULL. -/
inductive Res where
  | idx (i : Option Nat)
  | bool (b : Bool)
  | ptr (i : Option Nat)
  deriving DecidableEq, Repr

/-- What a call returns if the search has found this (include/bmap.h:112-121). -/
def result : LookOp → Option Nat → Res
  | .find, r => .idx r
  | .contains, r => .bool r.isSome
  | .get, r => .ptr r

/-- include/bmap.h:65-69: the union holds the address of a key (with the key that is there), or an index, `none` for -1. -/
inductive Tmp where
  | key (k : List Byte) (a : Nat)
  | idx (i : Option Nat)
  deriving DecidableEq, Repr

/-- include/bmap.h:113, 120, 149-154: `bmap_find_impl` with the pointer in `tmp`. An index taken for a pointer points to no key; if there are
    keys to compare with, it is dereferenced. -/
def look (c : Cfg) (b : BM) : Tmp → C (Option Nat)
  | .key k _ => Bmap.find c b k
  | .idx _ => if b.keys.count = 0 then pure none else .error .oobRead

/-- include/bmap.h:121: `tmp.ss` as an index. -/
def asIndex : Tmp → Nat
  | .key _ a => a
  | .idx none => 2^64 - 1
  | .idx (some i) => i

/-- Where a thread is in its first unfinished call: before it; `tmp.kt` is set (include/bmap.h:113, 119); `bmap_find_impl` has returned
    (include/bmap.h:120); `tmp.ss` is set to what it returned (include/bmap.h:120). -/
inductive Pc where
  | idle
  | named
  | found (r : Option Nat)
  | stored (r : Option Nat)
  deriving DecidableEq, Repr

/-- A thread: its unfinished calls (include/bmap.h:112-121), where it is, and what the finished ones returned. -/
structure Thread where
  calls : List Call
  pc : Pc
  out : List Res
  deriving DecidableEq, Repr

/-- `tmp` (include/bmap.h:65-69) and the threads. -/
structure St where
  tmp : Tmp
  th : Nat → Thread

/-- The next step of thread `t`: include/bmap.h:113 for `bmap_find` and `bmap_contains` (115), include/bmap.h:119-121 for `bmap_get`. The value of
    the assignment in line 120 is the value assigned, without reading it back (ISO C 6.5.16, footnote). -/
def step (c : Cfg) (b : BM) (s : St) (t : Nat) : C St :=
  let T := s.th t
  match T.calls, T.pc with
  | [], _ => pure s
  | x :: _, .idle => pure ⟨.key x.key x.addr, upd s.th t { T with pc := .named }⟩
  | x :: cs, .named => do
    let r ← look c b s.tmp
    match x.op with
    | .get => pure { s with th := upd s.th t { T with pc := .found r } }
    | op => pure { s with th := upd s.th t ⟨cs, .idle, T.out ++ [result op r]⟩ }
  | _ :: _, .found r => pure ⟨.idx r, upd s.th t { T with pc := .stored r }⟩
  | _ :: cs, .stored none => pure { s with th := upd s.th t ⟨cs, .idle, T.out ++ [.ptr none]⟩ }
  | _ :: cs, .stored (some _) => pure { s with th := upd s.th t ⟨cs, .idle, T.out ++ [.ptr (some (asIndex s.tmp))]⟩ }

/-- Steps of the threads in the order `sched` (include/bmap.h:112-121). -/
def run (c : Cfg) (b : BM) (s : St) : List Nat → C St
  | [] => pure s
  | t :: ts => do run c b (← step c b s t) ts

/-- The threads with the calls they are to make (include/bmap.h:112-121). -/
def start (p : Nat → List Call) (tmp : Tmp) : St := ⟨tmp, fun t => ⟨p t, .idle, []⟩⟩

/-! ### hbmap -/

/-- What a call returns: an iterator; a truth value; a pointer to the value with this bucket and index, or NULL. -/
inductive HRes where
  | iter (i : Iter)
  | bool (b : Bool)
  | ptr (p : Option (Nat × Nat))
  deriving DecidableEq, Repr

/-- Where a thread is in its first unfinished call (include/hbmap.h:142-145 with include/bmap.h:113, and 150-152). -/
inductive HPc where
  | idle
  | started                            -- `tmp.it` is set to the bucket (143)
  | aim (j : Nat)                      -- the bucket for the store of the key is known (144)
  | named                              -- `tmp.kt` of that bucket is set
  | picked (j : Nat)                   -- the bucket to search is known
  | keyed (j i : Nat)                  -- the bucket whose `tmp.kt` is to be used is known
  | looked (r : Option Nat)            -- `bmap_find_impl` has returned
  | merged (v : Iter)                  -- the operand of `|=` has been read, the result is `v`
  | stored                             -- and stored
  | tested                             -- `tmp.it` was not -1 (151)
  | within (j : Nat)                   -- the bucket of the value is known (151)
  deriving DecidableEq, Repr

/-- A thread: its unfinished calls (include/hbmap.h:142-152), where it is, and what the finished ones returned. -/
structure HThread where
  calls : List Call
  pc : HPc
  out : List HRes
  deriving DecidableEq, Repr

/-- `tmp.it` of the map (include/hbmap.h:30-32), `tmp.kt` of every bucket (include/bmap.h:65-69; `none`: no key was ever looked up there), and
    the threads. -/
structure HSt where
  it : Iter
  kt : Nat → Option (List Byte)
  th : Nat → HThread

/-- The next step of thread `t`: include/hbmap.h:142-145 for `hbmap_find` and `hbmap_contains` (147), followed by include/hbmap.h:150-152 for
    `hbmap_get`. The macro argument `&(X)->buckets[hbmap_iter_bucket((X)->tmp.it)]` occurs three times in `bmap_find` (include/bmap.h:113)
    and `(X)->tmp.it` twice in `hbmap_getval`; each is read anew. -/
def hstep (c : HCfg) (h : List BM) (s : HSt) (t : Nat) : C HSt :=
  let T := s.th t
  let go (pc : HPc) : HSt := { s with th := upd s.th t { T with pc := pc } }
  match T.calls, T.pc with
  | [], _ => pure s
  | x :: _, .idle => do
    let j ← Bmap.buckindex c h x.key
    pure { go .started with it := Bmap.makeBucket j }
  | _ :: _, .started => pure (go (.aim (Bmap.iterBucket s.it)))
  | x :: _, .aim j => if j < h.length then pure { go .named with kt := upd s.kt j (some x.key) } else .error .oobWrite
  | _ :: _, .named => pure (go (.picked (Bmap.iterBucket s.it)))
  | _ :: _, .picked j => pure (go (.keyed j (Bmap.iterBucket s.it)))
  | _ :: _, .keyed j i => do
    let b ← Bmap.bucket h j
    if i < h.length then
      match s.kt i with
      | some k => do pure (go (.looked (← Bmap.find c.toCfg b k)))
      | none => if b.keys.count = 0 then pure (go (.looked none)) else .error .nullDeref
    else .error .oobRead
  | _ :: _, .looked r => pure (go (.merged (s.it ||| Bmap.idx64 r)))
  | _ :: _, .merged v => pure { go .stored with it := v }
  | x :: cs, .stored =>
    match x.op with
    | .find => pure { s with th := upd s.th t ⟨cs, .idle, T.out ++ [.iter s.it]⟩ }
    | .contains => pure { s with th := upd s.th t ⟨cs, .idle, T.out ++ [.bool (!Bmap.isNone s.it)]⟩ }
    | .get =>
      if Bmap.isNone s.it then pure { s with th := upd s.th t ⟨cs, .idle, T.out ++ [.ptr none]⟩ }
      else pure (go .tested)
  | _ :: _, .tested => pure (go (.within (Bmap.iterBucket s.it)))
  | _ :: cs, .within j => do
    let _ ← Bmap.bucket h j
    pure { s with th := upd s.th t ⟨cs, .idle, T.out ++ [.ptr (some (j, Bmap.iterIndex s.it))]⟩ }

/-- Steps of the threads in the order `sched` (include/hbmap.h:142-152). -/
def hrun (c : HCfg) (h : List BM) (s : HSt) : List Nat → C HSt
  | [] => pure s
  | t :: ts => do hrun c h (← hstep c h s t) ts

/-- The threads with the calls they are to make (include/hbmap.h:142-152). -/
def hstart (p : Nat → List Call) (it : Iter) (kt : Nat → Option (List Byte)) : HSt := ⟨it, kt, fun t => ⟨p t, .idle, []⟩⟩

end Ulz.Share

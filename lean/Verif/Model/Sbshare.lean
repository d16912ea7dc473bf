import Verif.Model.Sblist
/-! Model of threads that use one sblist at the same time without a lock. Every load and every store of `count`, `capa` and `items`, every call of
`realloc` and every byte that is copied is one step; steps of different threads follow each other in any order and are atomic (by ISO C the accesses are
a data race and undefined, so this is the best case). `itemsize` and `blockitems` never change. The accesses are the ones that the source shows; a compiler
may keep values in registers, which removes loads. -/
namespace Ulz.Sbshare

/-- The list object (include/sblist.h:24-30) and the heap: `heap p` is the block with number `p`, if it is allocated; `items` is the number of a block.
    Block 0 stands for NULL and is empty. Numbers from `next` on were never used. -/
structure Mem where
  isz : Nat
  bi : Nat
  count : Nat
  capa : Nat
  items : Nat
  heap : Nat → Option (List Byte)
  next : Nat

/-- `f` with another value at `t`. -/
def upd {α : Type} (f : Nat → α) (t : Nat) (v : α) : Nat → α := fun u => if u = t then v else f u

/-- What `realloc` does: it fails, or succeeds in place (`true`) or with another block (`false`), with these bytes in the new part. -/
abbrev Grow := Option (Bool × (Nat → Byte))

/-- The calls: `sblist_add(l, x)` (src/sblist/sblist.c:69-73), `sblist_set(l, x, pos)` (src/sblist/sblist.c:52-56), and `sblist_get(l, i)`
    (src/sblist/sblist.c:47-50) followed by a copy of the item if the result is not NULL. -/
inductive Op where
  | add (x : List Byte) (g : Grow)
  | set (x : List Byte) (pos : Nat)
  | look (i : Nat)

/-- What a call gives: the `int` that it returns, or the item that was copied (`none`: NULL). -/
inductive Res where
  | int (n : Nat)
  | item (x : Option (List Byte))
  deriving DecidableEq, Repr

/-- Where a thread is in its first unfinished call: what it does next. -/
inductive Pc where
  | idle                      -- load `count` (src/sblist/sblist.c:48, 53, 60)
  | gcap (c : Nat)            -- load `capa` for the comparison (60)
  | gptr                      -- load `items` for `realloc` (61)
  | gcap2 (p : Nat)           -- load `capa` for `realloc` (61)
  | gcall (p k : Nat)         -- call `realloc` (61-62)
  | capl (q : Nat)            -- load `capa` for `+=` (63)
  | caps (q v : Nat)          -- and store it
  | setit (q : Nat)           -- store `items` (64)
  | inc                       -- load `count` for `++` (71)
  | incs (v : Nat)            -- and store it
  | pos                       -- load `count` for `l->count - 1` (72)
  | chk (p : Nat)             -- load `count` for the test (53)
  | addr (p : Nat)            -- load `items` (44, called in 54)
  | cpy (q off k : Nat)       -- copy byte `k` (54)
  | laddr (i : Nat)           -- load `items` (44, called in 48)
  | lrd (q off : Nat) (acc : List Byte) -- copy the next byte of the item
  deriving DecidableEq, Repr

/-- The block with number `p`; a block that was freed is undefined to use. -/
def block (m : Mem) (p : Nat) (e : UB) : C (List Byte) :=
  match m.heap p with
  | some b => pure b
  | none => .error e

/-- src/sblist/sblist.c:61: `realloc` of block `p` to `n` bytes; `none` is NULL. -/
def regrow (m : Mem) (g : Grow) (p n : Nat) : C (Mem × Option Nat) := do
  let b ← block m p .badFree
  match g with
  | none => pure (m, none)
  | some (stay, f) =>
    let t := b.take n ++ (List.range (n - b.length)).map f
    if stay ∧ p ≠ 0 then pure ({ m with heap := upd m.heap p (some t) }, some p)
    else if p = 0 then pure ({ m with heap := upd m.heap m.next (some t), next := m.next + 1 }, some m.next)
    else pure ({ m with heap := upd (upd m.heap p none) m.next (some t), next := m.next + 1 }, some m.next)

/-- The item a call hands in. -/
def given : Op → List Byte
  | .add x _ => x
  | .set x _ => x
  | .look _ => []

/-- The allocator during a call. -/
def growOf : Op → Grow
  | .add _ g => g
  | _ => none

/-- One step of a call: the next place, or what the call gives. src/sblist/sblist.c:43-73. -/
def micro (o : Op) (m : Mem) : Pc → C (Mem × (Pc ⊕ Res))
  | .idle =>
    match o with
    | .add _ _ => pure (m, .inl (.gcap m.count))
    | .set _ p => if p ≥ m.count then pure (m, .inr (.int 0)) else pure (m, .inl (.addr p))
    | .look i => if i < m.count then pure (m, .inl (.laddr i)) else pure (m, .inr (.item none))
  | .gcap c => if c = m.capa then pure (m, .inl .gptr) else pure (m, .inl .inc)
  | .gptr => pure (m, .inl (.gcap2 m.items))
  | .gcap2 p => pure (m, .inl (.gcall p m.capa))
  | .gcall p k => do
    let (m, q) ← regrow m (growOf o) p (szt ((k + m.bi) * m.isz))
    match q with
    | none => pure (m, .inr (.int 0))
    | some q => pure (m, .inl (.capl q))
  | .capl q => pure (m, .inl (.caps q m.capa))
  | .caps q v => pure ({ m with capa := szt (v + m.bi) }, .inl (.setit q))
  | .setit q => pure ({ m with items := q }, .inl .inc)
  | .inc => pure (m, .inl (.incs m.count))
  | .incs v => pure ({ m with count := szt (v + 1) }, .inl .pos)
  | .pos => pure (m, .inl (.chk (sztSub m.count 1)))
  | .chk p => if p ≥ m.count then pure (m, .inr (.int 0)) else pure (m, .inl (.addr p))
  | .addr p => pure (m, .inl (.cpy m.items (szt (p * m.isz)) 0))
  | .cpy q off k =>
    if k < m.isz then do
      let b ← wr (← block m q .oobWrite) (off + k) (← rd (given o) k)
      pure ({ m with heap := upd m.heap q (some b) }, .inl (.cpy q off (k + 1)))
    else pure (m, .inr (.int 1))
  | .laddr i => pure (m, .inl (.lrd m.items (szt (i * m.isz)) []))
  | .lrd q off acc =>
    if acc.length < m.isz then do
      let v ← rd (← block m q .oobRead) (off + acc.length)
      pure (m, .inl (.lrd q off (acc ++ [v])))
    else pure (m, .inr (.item (some acc)))

/-- A thread: its unfinished calls, where it is, and what the finished ones gave (src/sblist/sblist.c:43-73). -/
structure Thread where
  calls : List Op
  pc : Pc
  out : List Res

/-- The list with its memory and the threads (src/sblist/sblist.c:43-73). -/
structure St where
  mem : Mem
  th : Nat → Thread

/-- The next step of thread `t` (src/sblist/sblist.c:43-73). -/
def step (s : St) (t : Nat) : C St :=
  let T := s.th t
  match T.calls with
  | [] => pure s
  | o :: os => do
    match ← micro o s.mem T.pc with
    | (m, .inl pc) => pure ⟨m, upd s.th t { T with pc := pc }⟩
    | (m, .inr r) => pure ⟨m, upd s.th t ⟨os, .idle, T.out ++ [r]⟩⟩

/-- Steps of the threads in the order `sched` (src/sblist/sblist.c:43-73). -/
def run (s : St) : List Nat → C St
  | [] => pure s
  | t :: ts => do run (← step s t) ts

/-- The threads with the calls they are to make (src/sblist/sblist.c:43-73). -/
def start (m : Mem) (prog : Nat → List Op) : St := ⟨m, fun t => ⟨prog t, .idle, []⟩⟩

end Ulz.Sbshare

import Verif.Model.Ssalloc
/-! Model of threads that use one pool of include/ssalloc.c (there is only one, the static SSA_POOL of line 56) at the same time without a
lock. Every load and every store of `top`, `avail` and of a byte of `used` is one step; steps of different threads follow each other in any order and
are atomic (by ISO C the accesses are a data race and undefined, so this is the best case). The accesses are the ones that the source shows; a
compiler may keep values in registers, which removes loads. -/
namespace Ulz.Ssashare
open Ulz.Bitarray Ulz.Ssalloc

/-- Where a thread is in its first unfinished call of `ssa_alloc` (include/ssalloc.c:78-94) or `ssa_free` (96-107): what it does next. -/
inductive Pc where
  | idle                      -- start the call
  | inc                       -- load `top` for `p->top++` (82)
  | bump (v : Nat)            -- store `v + 1` in `top` (82)
  | pick                      -- load `top` for `p->top - 1` (83)
  | set (i : Nat)             -- load the byte of `used` for BA_SET_TRUE (68)
  | mark (i : Nat) (v : Byte) -- and store it
  | take (i : Nat)            -- load `avail` for `p->avail--` (69)
  | took (i : Nat) (v : Nat)  -- and store it, return the address of element `i` (70)
  | avail                     -- load `avail` for the test (85)
  | byte (b : Nat)            -- the loop over the bytes (86): load byte `b` (87)
  | bit (b i : Nat)           -- the loop over the bits (88): load the byte of bit `i` (89)
  | fclr (i : Nat)            -- load the byte of `used` for BA_SET_FALSE (104)
  | fmark (i : Nat) (v : Byte) -- and store it
  | fgive                     -- load `avail` for `p->avail++` (105)
  | fgave (v : Nat)           -- and store it
  | ftop                      -- the loop (106): load `top` for the test
  | flast                     -- load `top` for `p->top - 1`
  | fbit (j : Nat)            -- load the byte of bit `j`
  | fdec                      -- load `top` for `p->top--`
  | fdown (v : Nat)           -- and store it
  deriving DecidableEq, Repr

/-- The next step of the call `o` (include/ssalloc.c:67-71 and 78-107): the pool, and either where the thread is then or what the call
    returns (`free` returns nothing). -/
def micro (M E : Nat) (o : Op) (p : Pool) : Pc → C (Pool × (Pc ⊕ Option Nat))
  | .idle =>
    match o with
    | .alloc size =>
      if size > E then pure (p, .inr none)
      else if p.top < M then pure (p, .inl .inc)
      else pure (p, .inl .avail)
    | .free d => do
      let idx := ssa_getidx E d
      if idx = -1 ∨ idx ≥ M then pure (p, .inr none)
      else if ← getIdx p.used idx then pure (p, .inl (.fclr idx.toNat))
      else pure (p, .inr none)
  | .inc => pure (p, .inl (.bump p.top))
  | .bump v => pure ({ p with top := szt (v + 1) }, .inl .pick)
  | .pick => pure (p, .inl (.set (sztSub p.top 1)))
  | .set i => do pure (p, .inl (.mark i (← rd p.used (i / 8))))
  | .mark i v => do pure ({ p with used := ← wr p.used (i / 8) (v ||| (1#8 <<< (i % 8))) }, .inl (.take i))
  | .take i => pure (p, .inl (.took i p.avail))
  | .took i v => pure ({ p with avail := sztSub v 1 }, .inr (some (ssa_getaddr E i)))
  | .avail => if p.avail ≠ 0 then pure (p, .inl (.byte 0)) else pure (p, .inr none)
  | .byte b => do
    if b < M / 8 then
      if (← rd p.used b) ≠ 255 then pure (p, .inl (.bit b (8 * b))) else pure (p, .inl (.byte (b + 1)))
    else pure (p, .inr none)
  | .bit b i => do
    if i < 8 * (b + 1) then
      if ← BA_GET p.used i then pure (p, .inl (.bit b (i + 1))) else pure (p, .inl (.set i))
    else pure (p, .inl (.byte (b + 1)))
  | .fclr i => do pure (p, .inl (.fmark i (← rd p.used (i / 8))))
  | .fmark i v => do pure ({ p with used := ← wr p.used (i / 8) (v &&& ~~~(1#8 <<< (i % 8))) }, .inl .fgive)
  | .fgive => pure (p, .inl (.fgave p.avail))
  | .fgave v => pure ({ p with avail := szt (v + 1) }, .inl .ftop)
  | .ftop => if p.top ≠ 0 then pure (p, .inl .flast) else pure (p, .inr none)
  | .flast => pure (p, .inl (.fbit (sztSub p.top 1)))
  | .fbit j => do if ← BA_GET p.used j then pure (p, .inr none) else pure (p, .inl .fdec)
  | .fdec => pure (p, .inl (.fdown p.top))
  | .fdown v => pure ({ p with top := sztSub v 1 }, .inl .ftop)

/-- A thread: its unfinished calls, where it is, and what the finished ones returned (include/ssalloc.c:78-107). -/
structure Thread where
  calls : List Op
  pc : Pc
  out : List (Option Nat)
  deriving DecidableEq, Repr

/-- The pool (include/ssalloc.c:56) and the threads. -/
structure St where
  pool : Pool
  th : Nat → Thread

/-- `f` with another value at `t`. -/
def upd {α : Type} (f : Nat → α) (t : Nat) (v : α) : Nat → α := fun u => if u = t then v else f u

/-- The next step of thread `t` (include/ssalloc.c:78-107). -/
def step (M E : Nat) (s : St) (t : Nat) : C St :=
  let T := s.th t
  match T.calls with
  | [] => pure s
  | o :: os => do
    match ← micro M E o s.pool T.pc with
    | (p, .inl pc) => pure ⟨p, upd s.th t { T with pc := pc }⟩
    | (p, .inr r) => pure ⟨p, upd s.th t ⟨os, .idle, T.out ++ [r]⟩⟩

/-- Steps of the threads in the order `sched` (include/ssalloc.c:78-107). -/
def run (M E : Nat) (s : St) : List Nat → C St
  | [] => pure s
  | t :: ts => do run M E (← step M E s t) ts

/-- The threads with the calls they are to make (include/ssalloc.c:78-107). -/
def start (p : Pool) (prog : Nat → List Op) : St := ⟨p, fun t => ⟨prog t, .idle, []⟩⟩

end Ulz.Ssashare

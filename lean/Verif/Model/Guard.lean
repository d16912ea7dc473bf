import Verif.Base
import Verif.Model.Mem
/-! Model of include/guard_alloc.c. `ps` is the page size, a power of two. Addresses are numbers below 2^64. -/
namespace Ulz.Guard

/-- What the process may do with a page. -/
inductive Prot where
  | unmapped
  | rw
  | none
  deriving DecidableEq, Repr

/-- The address space: the state of every page, by page number. -/
abbrev Space := Nat → Prot

/-- Change the state of `n` pages from page `b` on. -/
def setPages (s : Space) (b n : Nat) (v : Prot) : Space := fun i => if b ≤ i ∧ i < b + n then v else s i

/-- Number of pages of a length in bytes; POSIX rounds up. -/
def pagesOf (ps len : Nat) : Nat := (len + ps - 1) / ps

/-- POSIX `mmap` of anonymous memory: `ans` is the page where the system places the mapping, or `none` if it fails; it fails
    for the length 0. Result: the space and the address (`none`: MAP_FAILED). -/
def mmap (ps : Nat) (s : Space) (len : Nat) (ans : Option Nat) : Space × Option Nat :=
  match ans with
  | none => (s, none)
  | some b => if len = 0 then (s, none) else (setPages s b (pagesOf ps len) .rw, some (b * ps))

/-- POSIX `munmap`: an address that is not page aligned, or the length 0, is an error and changes nothing. -/
def munmap (ps : Nat) (s : Space) (addr len : Nat) : Space :=
  if addr % ps ≠ 0 ∨ len = 0 then s else setPages s (addr / ps) (pagesOf ps len) .unmapped

/-- POSIX `mprotect(addr, len, PROT_NONE)`, which the system may refuse. Result: the space and whether it failed. -/
def mprotect (ps : Nat) (s : Space) (addr len : Nat) (refuse : Bool) : Space × Bool :=
  if refuse ∨ addr % ps ≠ 0 then (s, true) else (setPages s (addr / ps) (pagesOf ps len) .none, false)

/-- include/guard_alloc.c:15-24. NULL is `none`. -/
def guard_alloc (ps : Nat) (s : Space) (n : Nat) (ans : Option Nat) (refuse : Bool) : Space × Option Nat :=
  let pages := szt (1 + n / ps)
  match mmap ps s (szt (szt (pages + 1) * ps)) ans with
  | (s, none) => (s, none)
  | (s, some mem) =>
    match mprotect ps s (szt (mem + szt (pages * ps))) ps refuse with
    | (s, true) => (munmap ps s mem (szt (szt (pages + 1) * ps)), none)
    | (s, false) => (s, some (sztSub (szt (mem + szt (pages * ps))) n))

/-- include/guard_alloc.c:27-31. `-n & (ps - 1)` -/
def guard_free (ps : Nat) (s : Space) (p n : Nat) : Space :=
  let off := sztSub 0 n &&& (ps - 1)
  let mem := sztSub p off
  munmap ps s mem (szt (szt (n + off) + ps))

end Ulz.Guard

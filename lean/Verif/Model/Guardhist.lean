import Verif.Model.Guard
/-! Sequences of calls of include/guard_alloc.c. -/
namespace Ulz.Guard

/-- guard_alloc with the answers of the system, or guard_free of the `i`-th allocation in use with the size it was made with (include/guard_alloc.c:26). -/
inductive Op where
  | alloc (n : Nat) (ans : Option Nat) (refuse : Bool)
  | free (i : Nat)

/-- The address space, the allocations in use (address, size), and the sizes of those given back. -/
structure St where
  space : Space
  live : List (Nat × Nat)
  freed : List Nat

/-- One call (include/guard_alloc.c:15-31). -/
def step (ps : Nat) (st : St) : Op → St
  | .alloc n ans refuse =>
    match guard_alloc ps st.space n ans refuse with
    | (s, some p) => { st with space := s, live := st.live ++ [(p, n)] }
    | (s, none) => { st with space := s }
  | .free i =>
    match st.live[i]? with
    | none => st
    | some (p, n) => ⟨guard_free ps st.space p n, st.live.eraseIdx i, n :: st.freed⟩

/-- A sequence of calls. -/
def run (ps : Nat) (st : St) (ops : List Op) : St := ops.foldl (step ps) st

end Ulz.Guard

import Verif.Model.Ssashare
import Verif.Spec.Ssalloc
/-! Specification: threads that do not get in each other's way. -/
namespace Ulz.Ssashare.Spec
open Ulz.Ssalloc

/-- A call that does not look at the pool: an allocation that is too big, or a pointer that is not that of an element. -/
def Local (M E : Nat) : Op → Prop
  | .alloc size => size > E
  | .free d => ssa_getidx E d = -1 ∨ ssa_getidx E d ≥ M

/-- No two calls that look at the pool overlap: a thread makes a step of such a call only while all others are between two calls. -/
def NoOverlap (M E : Nat) (s : St) : List Nat → Prop
  | [] => True
  | t :: ts => ((∀ u, u ≠ t → (s.th u).pc = .idle) ∨ ∀ o, (s.th t).calls.head? = some o → Local M E o) ∧
      ∀ s', step M E s t = .ok s' → NoOverlap M E s' ts

/-- One of the calls of a common history: the thread, the call, what it returned. -/
abbrev Entry := Nat × Op × Option Nat

/-- All finished calls of all threads together are a history, in some order, of a pool that started as `p`: every thread has made its calls in its
    order and got what the history says; and if no call is going on, the pool is as the history leaves it. -/
def Serial (M E : Nat) (p : Pool) (prog : Nat → List Op) (s : St) : Prop :=
  ∃ (hist : List Entry) (q : Pool), Ssalloc.run M E p (hist.map fun e => e.2.1) = .ok (q, hist.map fun e => e.2.2) ∧
    (∀ t, prog t = ((hist.filter fun e => e.1 = t).map fun e => e.2.1) ++ (s.th t).calls ∧
      (s.th t).out = (hist.filter fun e => e.1 = t).map fun e => e.2.2) ∧
    ((∀ t, (s.th t).pc = .idle) → s.pool = q)

/-- No address was returned by two different calls, and all are addresses of elements of the pool. -/
def Sound (M E : Nat) (s : St) : Prop :=
  ∀ t, ((s.th t).out.filterMap id).Nodup ∧ (∀ a, some a ∈ (s.th t).out → ∃ i, i < M ∧ a = i * E) ∧
    ∀ u, u ≠ t → ∀ a, some a ∈ (s.th t).out → some a ∉ (s.th u).out

end Ulz.Ssashare.Spec

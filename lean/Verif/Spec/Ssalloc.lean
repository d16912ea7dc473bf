import Verif.Model.Ssalloc
/-! Specification of the single size allocator: a set of live elements, numbered from 0 to `M - 1`; element `i` is the
    memory from offset `i * E` to offset `i * E + E`. -/
namespace Ulz.Ssalloc.Spec

/-- No element can be handed out: the last one is live, and so are all in the part of the pool that is searched. -/
def Full (M : Nat) (live : List Nat) : Prop := M - 1 ∈ live ∧ ∀ i, i < 8 * (M / 8) → i ∈ live

/-- The element that is handed out: the one above all live ones, or, if the last one is live, the lowest that is not. -/
def Next (M : Nat) (live : List Nat) (i : Nat) : Prop :=
  (M - 1 ∉ live ∧ (∀ j ∈ live, j < i) ∧ (i = 0 ∨ i - 1 ∈ live)) ∨ (M - 1 ∈ live ∧ i ∉ live ∧ ∀ j, j < i → j ∈ live)

/-- What a call does to the live elements, and what it returns. -/
inductive Step (M E : Nat) : List Nat → Op → List Nat → Option Nat → Prop
  | alloc {live size i} : size ≤ E → ¬Full M live → i < M → i ∉ live → Next M live i →
      Step M E live (.alloc size) (i :: live) (some (i * E))
  | full {live size} : size ≤ E → Full M live → Step M E live (.alloc size) live none
  | big {live size} : size > E → Step M E live (.alloc size) live none
  | free {live i} : i ∈ live → Step M E live (.free ((i * E : Nat) : Int)) (live.erase i) none
  | notLive {live d} : (∀ i ∈ live, d ≠ ((i * E : Nat) : Int)) → Step M E live (.free d) live none

/-- A history. -/
inductive Steps (M E : Nat) : List Nat → List Op → List Nat → List (Option Nat) → Prop
  | nil {live} : Steps M E live [] live []
  | cons {live o live' r os live'' rs} : Step M E live o live' r → Steps M E live' os live'' rs →
      Steps M E live (o :: os) live'' (r :: rs)

/-- The pointers that may be passed to `ssa_free`: all at or behind the start of the pool, and of those before it the ones
    that are not a multiple of the element size away, or exactly one element. -/
def FreeOk (E : Nat) (d : Int) : Prop := 0 ≤ d ∨ ¬((E : Int) ∣ d) ∨ d = -(E : Int)

/-- The calls of a history that may be made. -/
def OpOk (E : Nat) : Op → Prop
  | .alloc _ => True
  | .free d => FreeOk E d

end Ulz.Ssalloc.Spec

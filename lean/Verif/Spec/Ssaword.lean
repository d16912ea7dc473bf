import Verif.Model.Ssaword
import Verif.Spec.Ssalloc
/-! Specification of the single size allocator that searches words of `k` bytes. -/
namespace Ulz.Ssaword.Spec
open Ulz.Ssalloc Ulz.Ssalloc.Spec

/-- No element can be handed out: the last one is live, and so are all in the part of the pool that is searched, whole words. -/
def Full (k M : Nat) (live : List Nat) : Prop := M - 1 ∈ live ∧ ∀ i, i < 8 * k * (M / (8 * k)) → i ∈ live

/-- What a call does to the live elements, and what it returns. -/
inductive Step (k M E : Nat) : List Nat → Op → List Nat → Option Nat → Prop
  | alloc {live size i} : size ≤ E → ¬Full k M live → i < M → i ∉ live → Next M live i →
      Step k M E live (.alloc size) (i :: live) (some (i * E))
  | full {live size} : size ≤ E → Full k M live → Step k M E live (.alloc size) live none
  | big {live size} : size > E → Step k M E live (.alloc size) live none
  | free {live i} : i ∈ live → Step k M E live (.free ((i * E : Nat) : Int)) (live.erase i) none
  | notLive {live d} : (∀ i ∈ live, d ≠ ((i * E : Nat) : Int)) → Step k M E live (.free d) live none

/-- A history. -/
inductive Steps (k M E : Nat) : List Nat → List Op → List Nat → List (Option Nat) → Prop
  | nil {live} : Steps k M E live [] live []
  | cons {live o live' r os live'' rs} : Step k M E live o live' r → Steps k M E live' os live'' rs →
      Steps k M E live (o :: os) live'' (r :: rs)

end Ulz.Ssaword.Spec

import Verif.Model.Subcmp
import Verif.Spec.Bmap
/-! Specification: maps from integers. -/
namespace Ulz.Subcmp.Spec
open Ulz.Bmap (Op Res)

/-- ISO C `bsearch` when the comparison function may be undefined: if it is defined for the key and every element, and the elements
    that compare less than the key come first, then those that compare equal, then those that compare greater, `bsearch` is defined and
    returns an element that compares equal, or NULL if there is none. -/
def BsearchOk (bs : List Byte → List (List Byte) → (List Byte → List Byte → C Int) → C (Option Nat)) : Prop :=
  ∀ key xs cmp (f : List Byte → Int), (∀ x ∈ xs, cmp key x = .ok (f x)) → xs.Pairwise (fun a b => (f b).sign ≤ (f a).sign) →
    (∃ (i : Nat) (h : i < xs.length), bs key xs cmp = .ok (some i) ∧ f xs[i] = 0) ∨ (bs key xs cmp = .ok none ∧ ∀ x ∈ xs, f x ≠ 0)

/-- A map from integers. -/
abbrev IMap := Int → Option (List Byte)

def empty : IMap := fun _ => none
def upd (M : IMap) (i : Int) (v : List Byte) : IMap := fun j => if j = i then some v else M j
def rem (M : IMap) (i : Int) : IMap := fun j => if j = i then none else M j

/-- Effect and result of one call on a map from integers. The insertion of a new one may fail if memory is refused. -/
inductive Step : IMap → Op → IMap → Res → Prop
  | insert {M k v a1 a2 i} : Step M (.insert k v a1 a2) (upd M (val k) v) (.idx (some i))
  | insertFail {M k v a1 a2 r} : M (val k) = none → a1 = none ∨ a2 = none → Step M (.insert k v a1 a2) M (.idx r)
  | get {M k} : Step M (.get k) M (.item (M (val k)))
  | contains {M k} : Step M (.contains k) M (.bool (M (val k)).isSome)
  | del {M k} : Step M (.del k) (rem M (val k)) (.bool (M (val k)).isSome)

inductive Steps : IMap → List Op → IMap → List Res → Prop
  | nil {M} : Steps M [] M []
  | cons {M op M' r ops M'' rs} : Step M op M' r → Steps M' ops M'' rs → Steps M (op :: ops) M'' (r :: rs)

/-- The key a call passes. -/
def key : Op → List Byte
  | .insert k _ _ _ => k
  | .get k => k
  | .contains k => k
  | .del k => k

/-- The `int` `i` as its four bytes. -/
def int4 (i : Int) : List Byte := Tglist.leBytes 4 (BitVec.ofInt 32 i).toNat

end Ulz.Subcmp.Spec

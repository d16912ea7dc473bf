import Verif.Spec.Bmap
/-! Specification: maps that do not tell apart keys related by some relation. -/
namespace Ulz.Badhash.Spec
open Ulz.Bmap Ulz.Bmap.Spec

/-- `M` with `k` and all keys the same as `k` mapped to `v`. -/
def upd (same : List Byte → List Byte → Bool) (M : Map) (k v : List Byte) : Map :=
  fun k' => if same k' k then some v else M k'
/-- `M` without `k` and all keys the same as `k`. -/
def rem (same : List Byte → List Byte → Bool) (M : Map) (k : List Byte) : Map :=
  fun k' => if same k' k then none else M k'

/-- Effect and result of one operation on a mathematical map whose keys are identified by `same`. -/
inductive Step (same : List Byte → List Byte → Bool) : Map → Op → Map → HRes → Prop
  | insert {M k v a1 a2} : Step same M (.insert k v a1 a2) (upd same M k v) (.iter false)
  | insertFail {M k v a1 a2} : M k = none → a1 = none ∨ a2 = none → Step same M (.insert k v a1 a2) M (.iter true)
  | get {M k} : Step same M (.get k) M (.item (M k))
  | contains {M k} : Step same M (.contains k) M (.bool (M k).isSome)
  | del {M k} : Step same M (.del k) (rem same M k) (.bool (M k).isSome)

inductive Steps (same : List Byte → List Byte → Bool) : Map → List Op → Map → List HRes → Prop
  | nil {M} : Steps same M [] M []
  | cons {M op M' r ops M'' rs} : Step same M op M' r → Steps same M' ops M'' rs → Steps same M (op :: ops) M'' (r :: rs)

/-- Two keys compare equal and belong into the same of `n` buckets. -/
def sameIn (c : HCfg) (n : Nat) (k k' : List Byte) : Bool :=
  c.cmp k k' = 0 && (c.hash k).toNat % n = (c.hash k').toNat % n

end Ulz.Badhash.Spec

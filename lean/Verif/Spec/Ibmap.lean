import Verif.Model.Ibmap
import Verif.Spec.Bmap
/-! Specification for bmap with indexed values and for the destruction of a bmap. -/
namespace Ulz.Ibmap.Spec
open Ulz.Bmap (Res Cfg)
open Ulz.Bmap.Spec (Map upd rem)

/-- Effect and result of one operation on a mathematical map. An insertion of a new key may fail, with the map unchanged, if
    memory is refused. -/
inductive Step (cmp : List Byte → List Byte → Int) : Map → Op → Map → Res → Prop
  | insert {M k v a1 a2 a3 i} : Step cmp M (.insert k v a1 a2 a3) (upd cmp M k v) (.idx (some i))
  | insertFail {M k v a1 a2 a3 r} : M k = none → a1 = none ∨ a2 = none ∨ a3 = none → Step cmp M (.insert k v a1 a2 a3) M (.idx r)
  | get {M k} : Step cmp M (.get k) M (.item (M k))
  | contains {M k} : Step cmp M (.contains k) M (.bool (M k).isSome)
  | del {M k} : Step cmp M (.del k) (rem cmp M k) (.bool (M k).isSome)

inductive Steps (cmp : List Byte → List Byte → Int) : Map → List Op → Map → List Res → Prop
  | nil {M} : Steps cmp M [] M []
  | cons {M op M' r ops M'' rs} : Step cmp M op M' r → Steps cmp M' ops M'' rs → Steps cmp M (op :: ops) M'' (r :: rs)

/-- Keys and values have the sizes of their types. -/
def OpOk (c : Cfg) : Op → Prop
  | .insert k v _ _ _ => k.length = c.ksz ∧ v.length = c.vsz
  | .get _ => True
  | .contains _ => True
  | .del _ => True

/-- The entries of a map object in index order, `S`, and the values it stores, `vals`: the value of entry `i` is
    `vals[idxs[i]]`, and no two entries share a value slot. -/
structure View (c : Cfg) (b : BMI) (S : List (List Byte × List Byte)) (idxs : List Nat) (vals : List (List Byte)) : Prop where
  keys : Tglist.Spec.Rep c.ksz b.keys (S.map Prod.fst)
  index : Tglist.Spec.Rep W b.values.index (idxs.map (Tglist.leBytes W))
  items : Tglist.Spec.Rep c.vsz b.values.items vals
  nodup : idxs.Nodup
  lt : ∀ i ∈ idxs, i < vals.length
  fit : vals.length ≤ 2^32
  slots : S.map Prod.snd = idxs.map fun i => vals.getD i []
  sorted : S.Pairwise fun x y => c.cmp x.1 y.1 < 0

/-- The pointers in `ps`, NULL apart, are allocated and distinct. -/
def Freeable (ps live : List Nat) : Prop := (ps.filter (· ≠ 0)).Nodup ∧ ∀ p ∈ ps, p ≠ 0 → p ∈ live

/-- What `bmap_fini` frees of a list of `sz`-byte items if its flag is set: the pointers in it, if it is a list of pointers. -/
def ptrs (flag : Bool) (sz : Nat) (xs : List (List Byte)) : List Nat :=
  if flag ∧ sz = 8 then xs.map Tglist.leVal else []

/-- Inserting the values `vs` in turn under the key `k`, deleting `k` after each. -/
def churn (k : List Byte) (f : Nat → Byte) : List (List Byte) → List Op
  | [] => []
  | v :: vs => .insert k v (some f) (some f) (some f) :: .del k :: churn k f vs

end Ulz.Ibmap.Spec

import Verif.Model.Bmap
import Verif.Spec.Tglist
/-! Specification: finite maps. Keys are identified when the comparison function returns 0. -/
namespace Ulz.Bmap.Spec
open Ulz.Sblist.Spec (TotalPreorder)

abbrev Map := List Byte → Option (List Byte)

def empty : Map := fun _ => none
/-- `M` with `k` (and every key equal to it) mapped to `v`. -/
def upd (cmp : List Byte → List Byte → Int) (M : Map) (k v : List Byte) : Map :=
  fun k' => if cmp k' k = 0 then some v else M k'
/-- `M` without `k`. -/
def rem (cmp : List Byte → List Byte → Int) (M : Map) (k : List Byte) : Map :=
  fun k' => if cmp k' k = 0 then none else M k'

/-- ISO C 7.22.5.1: if the elements that compare less than the key come first, then those that compare
    equal, then those that compare greater, `bsearch` returns an element that compares equal, or NULL if
    there is none. -/
def BsearchOk (bs : List Byte → List (List Byte) → (List Byte → List Byte → Int) → Option Nat) : Prop :=
  ∀ key xs cmp, xs.Pairwise (fun a b => (cmp key b).sign ≤ (cmp key a).sign) →
    match bs key xs cmp with
    | some i => ∃ h : i < xs.length, cmp key xs[i] = 0
    | none => ∀ x ∈ xs, cmp key x ≠ 0

/-- Legal instantiation of a map. -/
structure CfgOk (c : Cfg) : Prop where
  ksz : 0 < c.ksz
  vsz : 0 < c.vsz
  cmp : TotalPreorder c.cmp
  bs : BsearchOk c.bs

/-- Effect and result of one operation on a mathematical map. An insertion of a new key may fail, with
    the map unchanged, if memory is refused. -/
inductive Step (cmp : List Byte → List Byte → Int) : Map → Op → Map → Res → Prop
  | insert {M k v a1 a2 i} : Step cmp M (.insert k v a1 a2) (upd cmp M k v) (.idx (some i))
  | insertFail {M k v a1 a2 r} : M k = none → a1 = none ∨ a2 = none → Step cmp M (.insert k v a1 a2) M (.idx r)
  | get {M k} : Step cmp M (.get k) M (.item (M k))
  | contains {M k} : Step cmp M (.contains k) M (.bool (M k).isSome)
  | del {M k} : Step cmp M (.del k) (rem cmp M k) (.bool (M k).isSome)

inductive Steps (cmp : List Byte → List Byte → Int) : Map → List Op → Map → List Res → Prop
  | nil {M} : Steps cmp M [] M []
  | cons {M op M' r ops M'' rs} : Step cmp M op M' r → Steps cmp M' ops M'' rs → Steps cmp M (op :: ops) M'' (r :: rs)

/-- The same for hbmap, where a failing insertion is reported. -/
inductive HStep (cmp : List Byte → List Byte → Int) : Map → Op → Map → HRes → Prop
  | insert {M k v a1 a2} : HStep cmp M (.insert k v a1 a2) (upd cmp M k v) (.iter false)
  | insertFail {M k v a1 a2} : M k = none → a1 = none ∨ a2 = none →
      HStep cmp M (.insert k v a1 a2) M (.iter true)
  | get {M k} : HStep cmp M (.get k) M (.item (M k))
  | contains {M k} : HStep cmp M (.contains k) M (.bool (M k).isSome)
  | del {M k} : HStep cmp M (.del k) (rem cmp M k) (.bool (M k).isSome)

inductive HSteps (cmp : List Byte → List Byte → Int) : Map → List Op → Map → List HRes → Prop
  | nil {M} : HSteps cmp M [] M []
  | cons {M op M' r ops M'' rs} : HStep cmp M op M' r → HSteps cmp M' ops M'' rs →
      HSteps cmp M (op :: ops) M'' (r :: rs)

/-- Keys and values have the sizes of their types. -/
def OpOk (c : Cfg) : Op → Prop
  | .insert k v _ _ => k.length = c.ksz ∧ v.length = c.vsz
  | .get _ => True
  | .contains _ => True
  | .del _ => True

/-- The entries of a map object in index order: aligned keys and values, keys strictly increasing. -/
structure View (c : Cfg) (b : BM) (S : List (List Byte × List Byte)) : Prop where
  keys : Tglist.Spec.Rep c.ksz b.keys (S.map Prod.fst)
  values : Tglist.Spec.Rep c.vsz b.values (S.map Prod.snd)
  sorted : S.Pairwise fun x y => c.cmp x.1 y.1 < 0

/-- Value of a key in a list of entries. -/
def lookup (cmp : List Byte → List Byte → Int) (S : List (List Byte × List Byte)) : Map :=
  fun k => (S.find? fun e => cmp k e.1 = 0).map Prod.snd

/-- Legal instantiation of an hbmap: keys that compare equal have the same hash. -/
structure HCfgOk (c : HCfg) : Prop extends CfgOk c.toCfg where
  hash : ∀ k k', c.cmp k k' = 0 → c.hash k = c.hash k'

/-- The iterator for entry `i` of bucket `b`. -/
def mkIter (b i : Nat) : Iter := BitVec.ofNat 64 (b * 2^32 + i)

/-- The iterators of all entries, bucket by bucket. -/
def allIters (h : List BM) : List Iter :=
  (List.range h.length).flatMap fun b => (List.range ((h[b]?.map (·.keys.count)).getD 0)).map (mkIter b)

end Ulz.Bmap.Spec

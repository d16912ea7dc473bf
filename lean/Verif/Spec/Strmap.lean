import Verif.Model.Strmap
import Verif.Spec.Bmap
/-! Specification: maps from strings. -/
namespace Ulz.Strmap.Spec
open Ulz.Bmap (Cfg BM Op Res)
open Ulz.Tglist (leVal)

/-- A map from strings. -/
abbrev SMap := List Byte → Option (List Byte)

def empty : SMap := fun _ => none
def upd (M : SMap) (s v : List Byte) : SMap := fun s' => if s' = s then some v else M s'
def rem (M : SMap) (s : List Byte) : SMap := fun s' => if s' = s then none else M s'

/-- Effect and result of one call on a map from strings, the key being a pointer into the memory `μ`. The insertion of a new string
    may fail if memory is refused. -/
inductive Step : SMap → Mem × Op → SMap → Res → Prop
  | insert {M μ k v a1 a2 i} : Step M (μ, .insert k v a1 a2) (upd M (μ (leVal k)) v) (.idx (some i))
  | insertFail {M μ k v a1 a2 r} : M (μ (leVal k)) = none → a1 = none ∨ a2 = none → Step M (μ, .insert k v a1 a2) M (.idx r)
  | get {M μ k} : Step M (μ, .get k) M (.item (M (μ (leVal k))))
  | contains {M μ k} : Step M (μ, .contains k) M (.bool (M (μ (leVal k))).isSome)
  | del {M μ k} : Step M (μ, .del k) (rem M (μ (leVal k))) (.bool (M (μ (leVal k))).isSome)

inductive Steps : SMap → List (Mem × Op) → SMap → List Res → Prop
  | nil {M} : Steps M [] M []
  | cons {M op M' r ops M'' rs} : Step M op M' r → Steps M' ops M'' rs → Steps M (op :: ops) M'' (r :: rs)

/-- The strings of the keys that are in the map do not change: whenever a call is made, each key in the map points to the same string
    as at the call before. -/
def Stable (c : Mem → Cfg) : Mem → BM → List (Mem × Op) → Prop
  | _, _, [] => True
  | μ, b, (μ', op) :: ops =>
    (∀ i k, i < b.keys.count → Bmap.getkey (c μ) b i = .ok k → μ' (leVal k) = μ (leVal k)) ∧
    ∀ b' r, Bmap.step (c μ') b op = .ok (b', r) → Stable c μ' b' ops

/-- The pointer to address `a`. -/
def ptr (a : Nat) : List Byte := Tglist.leBytes 8 a

end Ulz.Strmap.Spec

import Verif.Model.Hstrmap
import Verif.Spec.Strmap
/-! Specification: hash maps from strings. -/
namespace Ulz.Hstrmap.Spec
open Ulz.Bmap (HCfg BM Op HRes)
open Ulz.Strmap (Mem)
open Ulz.Strmap.Spec (SMap upd rem)
open Ulz.Tglist (leVal)

/-- Effect and result of one call on a map from strings, the key being a pointer into the memory `μ`. The insertion of a new string
    may fail if memory is refused; it says so. -/
inductive Step : SMap → Mem × Op → SMap → HRes → Prop
  | insert {M μ k v a1 a2} : Step M (μ, .insert k v a1 a2) (upd M (μ (leVal k)) v) (.iter false)
  | insertFail {M μ k v a1 a2} : M (μ (leVal k)) = none → a1 = none ∨ a2 = none → Step M (μ, .insert k v a1 a2) M (.iter true)
  | get {M μ k} : Step M (μ, .get k) M (.item (M (μ (leVal k))))
  | contains {M μ k} : Step M (μ, .contains k) M (.bool (M (μ (leVal k))).isSome)
  | del {M μ k} : Step M (μ, .del k) (rem M (μ (leVal k))) (.bool (M (μ (leVal k))).isSome)

inductive Steps : SMap → List (Mem × Op) → SMap → List HRes → Prop
  | nil {M} : Steps M [] M []
  | cons {M op M' r ops M'' rs} : Step M op M' r → Steps M' ops M'' rs → Steps M (op :: ops) M'' (r :: rs)

/-- The strings of the keys that are in the map do not change: whenever a call is made, each key in each bucket points to the same
    string as at the call before. -/
def Stable (c : Mem → HCfg) : Mem → List BM → List (Mem × Op) → Prop
  | _, _, [] => True
  | μ, h, (μ', op) :: ops =>
    (∀ b ∈ h, ∀ i k, i < b.keys.count → Bmap.getkey (c μ).toCfg b i = .ok k → μ' (leVal k) = μ (leVal k)) ∧
    ∀ h' r, Bmap.hstep (c μ') h op = .ok (h', r) → Stable c μ' h' ops

/-- The bucket a string belongs to, of `n`. -/
def home (hf : List Byte → BitVec 32) (n : Nat) (s : List Byte) : Nat := (hf s).toNat % n

end Ulz.Hstrmap.Spec

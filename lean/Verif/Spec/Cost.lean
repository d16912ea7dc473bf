import Verif.Model.Cost
import Verif.Spec.Sblist
import Verif.Spec.Tglist
/-! Specification: sizes of lists over a history of calls. -/
namespace Ulz.Cost.Spec

/-- The largest number of items the list has at any time, before, between or after the calls. -/
def sbPeak (l : Sblist.SB) : List Sblist.Op → Nat
  | [] => l.count
  | op :: ops =>
    match Sblist.step l op with
    | .ok (l', _) => max l.count (sbPeak l' ops)
    | .error _ => l.count

/-- The sizes of the buffers that calls got in place of one of another size, in order. -/
def sbBuffers (l : Sblist.SB) : List Sblist.Op → List Nat
  | [] => []
  | op :: ops =>
    match Sblist.step l op with
    | .ok (l', _) => (if l'.items.length = l.items.length then [] else [l'.items.length]) ++ sbBuffers l' ops
    | .error _ => []

/-- The same for tglist. -/
def tgPeak (isz : Nat) (l : Tglist.TG) : List Tglist.Op → Nat
  | [] => l.count
  | op :: ops =>
    match Tglist.step isz l op with
    | .ok (l', _) => max l.count (tgPeak isz l' ops)
    | .error _ => l.count

def tgBuffers (isz : Nat) (l : Tglist.TG) : List Tglist.Op → List Nat
  | [] => []
  | op :: ops =>
    match Tglist.step isz l op with
    | .ok (l', _) => (if l'.items.length = l.items.length then [] else [l'.items.length]) ++ tgBuffers isz l' ops
    | .error _ => []

/-- The capacities a tglist goes through: 0, 4, 8, 16, … items. -/
def tgCapa : Nat → Nat
  | 0 => 0
  | m + 1 => 4 * 2 ^ m

end Ulz.Cost.Spec

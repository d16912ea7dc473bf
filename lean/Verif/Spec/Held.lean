import Verif.Model.Held
import Verif.Spec.Cost
import Verif.Spec.Tlist
/-! Specification: what a pointer kept over calls shows. -/
namespace Ulz.Held.Spec

/-- The item at index `i` when the list last had one there: `v` to begin with, then item `i` of the list now and after every call as
    long as there is one. -/
def sbLast (i : Nat) (v : List Byte) (l : Sblist.SB) : List Sblist.Op → List Byte
  | [] => match Sblist.content l (Sblist.get l i) with
    | .ok (some x) => x
    | _ => v
  | op :: ops =>
    let v := match Sblist.content l (Sblist.get l i) with
      | .ok (some x) => x
      | _ => v
    match Sblist.step l op with
    | .ok (l', _) => sbLast i v l' ops
    | .error _ => v

/-- The same for tglist. -/
def tgLast (isz i : Nat) (v : List Byte) (l : Tglist.TG) : List Tglist.Op → List Byte
  | [] => if i < l.count then (match Tglist.get isz l i with | .ok x => x | .error _ => v) else v
  | op :: ops =>
    let v := if i < l.count then (match Tglist.get isz l i with | .ok x => x | .error _ => v) else v
    match Tglist.step isz l op with
    | .ok (l', _) => tgLast isz i v l' ops
    | .error _ => v

/-- Where the item at index `i` is after a call with this result; `none`: the call removed it. -/
def move (i : Nat) : Tlist.Op → Tlist.Res → Option Nat
  | .insert idx _ _, .int 1 => some (if idx ≤ i then i + 1 else i)
  | .delete idx, .int 1 => if idx = i then none else some (if idx < i then i - 1 else i)
  | _, _ => some i

/-- Where it is after a history of calls. -/
def follow (i : Nat) : List Tlist.Op → List Tlist.Res → Option Nat
  | op :: ops, r :: rs =>
    match move i op r with
    | some i => follow i ops rs
    | none => none
  | _, _ => some i

/-- The address `malloc` returns in the call, if it is made. -/
def mem : Tlist.Op → Option Nat
  | .insert _ _ m => m
  | .append _ m => m
  | _ => none

end Ulz.Held.Spec

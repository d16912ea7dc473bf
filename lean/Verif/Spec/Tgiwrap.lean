import Verif.Spec.Tglist
/-! What a tgilist is when more values are added than its index type has numbers: references into a growing array of values. -/
namespace Ulz.Tgiwrap.Spec
open Ulz.Tglist

/-- The values that were ever added, and for each position of the list the number of the value it refers to. -/
structure St where
  vals : List (List Byte)
  refs : List Nat

/-- What the call does, if the index type has `N` numbers: the value number `n` gets the reference `n % N`. -/
inductive Step (N : Nat) : St → IOp → St → Res → Prop
  | add {vals refs x a1 a2} : Step N ⟨vals, refs⟩ (.add x a1 a2) ⟨vals ++ [x], refs ++ [vals.length % N]⟩ (.int 1)
  | addFail {s x a1 a2} : a1 = none ∨ a2 = none → Step N s (.add x a1 a2) s (.int 0)
  | set {vals refs x} {pos : Nat} (h : pos < refs.length) : Step N ⟨vals, refs⟩ (.set x pos) ⟨vals.set refs[pos] x, refs⟩ (.int 1)
  | get {vals : List (List Byte)} {refs : List Nat} {i : Nat} (h : i < refs.length) (hv : refs[i] < vals.length) :
      Step N ⟨vals, refs⟩ (.get i) ⟨vals, refs⟩ (.item vals[refs[i]])
  | insert {vals refs x pos a1 a2} : pos ≤ refs.length →
      Step N ⟨vals, refs⟩ (.insert x pos a1 a2) ⟨vals ++ [x], refs.take pos ++ vals.length % N :: refs.drop pos⟩ (.int 1)
  | insertFail {s x pos a1 a2} : a1 = none ∨ a2 = none → Step N s (.insert x pos a1 a2) s (.int 0)
  | delete {vals refs i} : i < refs.length → Step N ⟨vals, refs⟩ (.delete i) ⟨vals, refs.eraseIdx i⟩ .unit
  | getsize {vals refs} : Step N ⟨vals, refs⟩ .getsize ⟨vals, refs⟩ (.int refs.length)

inductive Steps (N : Nat) : St → List IOp → St → List Res → Prop
  | nil {s} : Steps N s [] s []
  | cons {s op s' r ops s'' rs} : Step N s op s' r → Steps N s' ops s'' rs → Steps N s (op :: ops) s'' (r :: rs)

/-- The call adds a value. -/
def adds : IOp → Bool
  | .add _ _ _ | .insert _ _ _ _ => true
  | _ => false

/-- The number of values added with success. -/
def added (ops : List IOp) (rs : List Res) : Nat := (ops.zip rs).countP fun x => adds x.1 && decide (x.2 = .int 1)

end Ulz.Tgiwrap.Spec

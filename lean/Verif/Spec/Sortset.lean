import Verif.Model.Sortset
/-! Specification: a table gives for a key the item stored under an equal key, or none. -/
namespace Ulz.Sortset.Spec

/-- What is stored under each key. -/
abbrev Table := List Byte → Option (List Byte)

/-- What an operation may do to a table: an item is stored if nothing is stored under an equal key and there is memory; it stays as it
    is until it is removed. If there is no memory the operation may fail and change nothing. -/
inductive Step (cmp : List Byte → List Byte → Int) : Table → Op → Table → Res → Prop
  | add {f x a} : f x = none → Step cmp f (.add x a) (fun y => if cmp y x = 0 then some x else f y) (.int 1)
  | addThere {f x a z} : f x = some z → Step cmp f (.add x a) f (.int 0)
  | addFail {f x} : f x = none → Step cmp f (.add x none) f (.int 2)
  | remove {f x z} : f x = some z → Step cmp f (.remove x) (fun y => if cmp y x = 0 then none else f y) (.int 1)
  | removeNot {f x} : f x = none → Step cmp f (.remove x) f (.int 0)
  | find {f x} : Step cmp f (.find x) f (.item (f x))

inductive Steps (cmp : List Byte → List Byte → Int) : Table → List Op → Table → List Res → Prop
  | nil {f} : Steps cmp f [] f []
  | cons {f op g r ops h rs} : Step cmp f op g r → Steps cmp g ops h rs → Steps cmp f (op :: ops) h (r :: rs)

/-- Items have the size of the list's items. -/
def OpOk (isz : Nat) : Op → Prop
  | .add x _ => x.length = isz
  | _ => True

end Ulz.Sortset.Spec

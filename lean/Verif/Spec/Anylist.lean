import Verif.Base
/-! Specification: calls every list type offers, and what they do to a mathematical list. -/
namespace Ulz.Anylist

/-- A call that sblist, tlist, tglist and tgilist all offer. -/
inductive Call where
  | append (x : List Byte)
  | insert (x : List Byte) (pos : Nat)
  | delete (i : Nat)
  | get (i : Nat)
  | size
  deriving DecidableEq

/-- What the program sees of a call. -/
inductive Ans where
  | done
  | failed
  | item (x : Option (List Byte))
  | size (n : Nat)
  deriving DecidableEq, Repr

namespace Spec

/-- The list after a call. -/
def after (xs : List (List Byte)) : Call → List (List Byte)
  | .append x => xs ++ [x]
  | .insert x pos => xs.take pos ++ x :: xs.drop pos
  | .delete i => xs.eraseIdx i
  | .get _ => xs
  | .size => xs

/-- The answer to a call. -/
def answer (xs : List (List Byte)) : Call → Ans
  | .append _ => .done
  | .insert _ _ => .done
  | .delete _ => .done
  | .get i => .item xs[i]?
  | .size => .size xs.length

/-- The answers to a sequence of calls. -/
def answers (xs : List (List Byte)) : List Call → List Ans
  | [] => []
  | c :: cs => answer xs c :: answers (after xs c) cs

/-- The call is one the documentation of all four types allows: items of `isz` bytes, insertions up to the end, other
    positions below it. -/
def CallOk (isz : Nat) (xs : List (List Byte)) : Call → Prop
  | .append x => x.length = isz
  | .insert x pos => x.length = isz ∧ pos ≤ xs.length
  | .delete i => i < xs.length
  | .get i => i < xs.length
  | .size => True

/-- Every call of the sequence is allowed when it is made. -/
def InRange (isz : Nat) (xs : List (List Byte)) : List Call → Prop
  | [] => True
  | c :: cs => CallOk isz xs c ∧ InRange isz (after xs c) cs

end Spec
end Ulz.Anylist

import Verif.Model.Sblist
/-! Specification: a list of values. -/
namespace Ulz.Sblist.Spec

/-- The list object `l` is well formed and holds the values `xs`: its buffer is exactly `capa` items large
    and starts with the bytes of the values, one after the other. -/
structure Rep (l : SB) (xs : List (List Byte)) : Prop where
  isz : 0 < l.itemsize
  count : l.count = xs.length
  item : ∀ x ∈ xs, x.length = l.itemsize
  capa : l.count ≤ l.capa
  buf : ∃ slack, l.items = xs.flatten ++ slack ∧ slack.length = (l.capa - l.count) * l.itemsize

/-- What a call may do to a mathematical list of values, and what it returns. An insertion must succeed
    if the allocator succeeds; if the allocator fails it may still succeed (no memory was needed) or
    report failure and leave the list alone. -/
inductive Step : List (List Byte) → Op → List (List Byte) → Res → Prop
  | add {xs x a} : Step xs (.add x a) (xs ++ [x]) (.int 1)
  | addFail {xs x} : Step xs (.add x none) xs (.int 0)
  | addi {xs x a} : Step xs (.addi x a) (xs ++ [x]) (.index (some xs.length))
  | addiFail {xs x} : Step xs (.addi x none) xs (.index none)
  | set {xs x pos} : pos < xs.length → Step xs (.set x pos) (xs.set pos x) (.int 1)
  | setOut {xs x pos} : xs.length ≤ pos → Step xs (.set x pos) xs (.int 0)
  | get {xs i} : Step xs (.get i) xs (.item xs[i]?)
  | insert {xs x pos a} : pos ≤ xs.length → Step xs (.insert x pos a) (xs.take pos ++ x :: xs.drop pos) (.int 1)
  | insertFail {xs x pos} : pos ≤ xs.length → Step xs (.insert x pos none) xs (.int 0)
  | delete {xs i} : Step xs (.delete i) (xs.eraseIdx i) .unit
  | pop {xs} : Step xs .pop xs.dropLast (.item xs.getLast?)

/-- A sequence of calls on a mathematical list. -/
inductive Steps : List (List Byte) → List Op → List (List Byte) → List Res → Prop
  | nil {xs} : Steps xs [] xs []
  | cons {xs op ys r ops zs rs} : Step xs op ys r → Steps ys ops zs rs → Steps xs (op :: ops) zs (r :: rs)

/-- A call a user may make on a list with items of `isz` bytes that currently has `len` items: the items
    handed in have the right size, and insertions are not beyond the end. -/
def OpOk (isz len : Nat) : Op → Prop
  | .add x _ => x.length = isz
  | .addi x _ => x.length = isz
  | .set x _ => x.length = isz
  | .insert x pos _ => x.length = isz ∧ pos ≤ len
  | _ => True

/-- Every call of the sequence is allowed when it is made (`count` is `sblist_getsize`). -/
def Valid (l : SB) (ops : List Op) : Prop :=
  ∀ pre op post, ops = pre ++ op :: post → ∀ l' rs, run l pre = .ok (l', rs) → OpOk l.itemsize l'.count op

/-- Comparison functions that are total preorders: `cmp a b` negative, zero, positive for less, equal,
    greater. -/
structure TotalPreorder (cmp : List Byte → List Byte → Int) : Prop where
  refl : ∀ a, cmp a a = 0
  flip : ∀ a b, cmp a b < 0 ↔ cmp b a > 0
  trans : ∀ a b c, cmp a b ≤ 0 → cmp b c ≤ 0 → cmp a c ≤ 0

/-- Sorted list. -/
def Sorted (cmp : List Byte → List Byte → Int) (xs : List (List Byte)) : Prop :=
  xs.Pairwise fun a b => cmp a b ≤ 0

end Ulz.Sblist.Spec

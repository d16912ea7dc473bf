import Verif.Model.Tglist
import Verif.Spec.Sblist
/-! Specification: lists of values. -/
namespace Ulz.Tglist.Spec

/-- The list object holds the values `xs` of `isz` bytes each; its buffer has exactly `capa` items. -/
structure Rep (isz : Nat) (l : TG) (xs : List (List Byte)) : Prop where
  pos : 0 < isz
  count : l.count = xs.length
  item : ∀ x ∈ xs, x.length = isz
  capa : l.count ≤ l.capa
  buf : ∃ slack, l.items = xs.flatten ++ slack ∧ slack.length = (l.capa - l.count) * isz

/-- Effect and result of a call on a mathematical list. -/
inductive Step : List (List Byte) → Op → List (List Byte) → Res → Prop
  | add {xs x a} : Step xs (.add x a) (xs ++ [x]) (.int 1)
  | addFail {xs x} : Step xs (.add x none) xs (.int 0)
  | set {xs x pos} : pos < xs.length → Step xs (.set x pos) (xs.set pos x) (.int 1)
  | get {xs i} (h : i < xs.length) : Step xs (.get i) xs (.item xs[i])
  | insert {xs x pos a} : pos ≤ xs.length → Step xs (.insert x pos a) (xs.take pos ++ x :: xs.drop pos) (.int 1)
  | insertFail {xs x pos} : pos ≤ xs.length → Step xs (.insert x pos none) xs (.int 0)
  | delete {xs i} : i < xs.length → Step xs (.delete i) (xs.eraseIdx i) .unit
  | getsize {xs} : Step xs .getsize xs (.int xs.length)

inductive Steps : List (List Byte) → List Op → List (List Byte) → List Res → Prop
  | nil {xs} : Steps xs [] xs []
  | cons {xs op ys r ops zs rs} : Step xs op ys r → Steps ys ops zs rs → Steps xs (op :: ops) zs (r :: rs)

/-- Calls allowed on a list of `len` items (the header: no bounds checks are made). -/
def OpOk (isz len : Nat) : Op → Prop
  | .add x _ => x.length = isz
  | .set x pos => x.length = isz ∧ pos < len
  | .get i => i < len
  | .insert x pos _ => x.length = isz ∧ pos ≤ len
  | .delete i => i < len
  | .getsize => True

/-- Every call is allowed when it is made. -/
def Valid (isz : Nat) (l : TG) (ops : List Op) : Prop :=
  ∀ pre op post, ops = pre ++ op :: post → ∀ l' rs, run isz l pre = .ok (l', rs) → OpOk isz l'.count op

/-- The same for tgilist, whose calls may fail in either of two allocations. -/
inductive IStep : List (List Byte) → IOp → List (List Byte) → Res → Prop
  | add {xs x a1 a2} : IStep xs (.add x a1 a2) (xs ++ [x]) (.int 1)
  | addFail {xs x a1 a2} : a1 = none ∨ a2 = none → IStep xs (.add x a1 a2) xs (.int 0)
  | set {xs x pos} : pos < xs.length → IStep xs (.set x pos) (xs.set pos x) (.int 1)
  | get {xs i} (h : i < xs.length) : IStep xs (.get i) xs (.item xs[i])
  | insert {xs x pos a1 a2} : pos ≤ xs.length →
      IStep xs (.insert x pos a1 a2) (xs.take pos ++ x :: xs.drop pos) (.int 1)
  | insertFail {xs x pos a1 a2} : pos ≤ xs.length → a1 = none ∨ a2 = none →
      IStep xs (.insert x pos a1 a2) xs (.int 0)
  | delete {xs i} : i < xs.length → IStep xs (.delete i) (xs.eraseIdx i) .unit
  | getsize {xs} : IStep xs .getsize xs (.int xs.length)

inductive ISteps : List (List Byte) → List IOp → List (List Byte) → List Res → Prop
  | nil {xs} : ISteps xs [] xs []
  | cons {xs op ys r ops zs rs} : IStep xs op ys r → ISteps ys ops zs rs → ISteps xs (op :: ops) zs (r :: rs)

def IOpOk (isz len : Nat) : IOp → Prop
  | .add x _ _ => x.length = isz
  | .set x pos => x.length = isz ∧ pos < len
  | .get i => i < len
  | .insert x pos _ _ => x.length = isz ∧ pos ≤ len
  | .delete i => i < len
  | .getsize => True

def IValid (w isz : Nat) (l : TGI) (ops : List IOp) : Prop :=
  ∀ pre op post, ops = pre ++ op :: post → ∀ l' rs, irun w isz l pre = .ok (l', rs) → IOpOk isz l'.index.count op

/-- Capacities the growth policy can produce. -/
def CapaOk (c : Nat) : Prop := c = 0 ∨ ∃ k, c = 4 * 2^k

end Ulz.Tglist.Spec

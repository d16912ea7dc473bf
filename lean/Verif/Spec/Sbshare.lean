import Verif.Model.Sbshare
import Verif.Spec.Sblist
/-! Specification: lists of values, and threads that do not get in each other's way. -/
namespace Ulz.Sbshare.Spec

/-- The list object and its block, as the sequential model sees them. -/
def view (m : Mem) : Sblist.SB := ⟨m.isz, m.bi, m.count, m.capa, (m.heap m.items).getD []⟩

/-- The memory holds a well formed list of the values `xs` (`Sblist.Spec.Rep`); its block is allocated, or it has none; unused numbers are unused. -/
structure Holds (m : Mem) (xs : List (List Byte)) : Prop where
  rep : Sblist.Spec.Rep (view m) xs
  live : (m.heap m.items).isSome
  null : m.heap 0 = some []
  fresh : ∀ p, m.next ≤ p → m.heap p = none

/-- What a call may do to a list of values, and what it gives. -/
inductive Step : List (List Byte) → Op → List (List Byte) → Res → Prop
  | add {xs x g} : Step xs (.add x g) (xs ++ [x]) (.int 1)
  | addFail {xs x} : Step xs (.add x none) xs (.int 0)
  | set {xs x pos} : pos < xs.length → Step xs (.set x pos) (xs.set pos x) (.int 1)
  | setOut {xs x pos} : xs.length ≤ pos → Step xs (.set x pos) xs (.int 0)
  | look {xs i} : Step xs (.look i) xs (.item xs[i]?)

/-- A sequence of calls. -/
inductive Steps : List (List Byte) → List Op → List (List Byte) → List Res → Prop
  | nil {xs} : Steps xs [] xs []
  | snoc {xs ops ys rs o zs r} : Steps xs ops ys rs → Step ys o zs r → Steps xs (ops ++ [o]) zs (rs ++ [r])

/-- Items handed in have the size of an item. -/
def OpOk (isz : Nat) : Op → Prop
  | .add x _ => x.length = isz
  | .set x _ => x.length = isz
  | .look _ => True

/-- The call adds an item. -/
def IsAdd : Op → Prop
  | .add _ _ => True
  | _ => False

/-- The number of calls that add an item. -/
def adds : List Op → Nat
  | [] => 0
  | .add _ _ :: os => adds os + 1
  | _ :: os => adds os

/-- The call looks at or sets the item `i` of a list that had `n` items before; all added items count. -/
def Uses (n : Nat) (o : Op) (i : Nat) : Prop :=
  match o with
  | .add _ _ => n ≤ i
  | .set _ p => i = p
  | .look p => i = p

/-- The call sets the item `i` of a list that had `n` items before, or may add it. -/
def Sets (n : Nat) (o : Op) (i : Nat) : Prop :=
  match o with
  | .add _ _ => n ≤ i
  | .set _ p => i = p
  | .look _ => False

/-- What one thread sets, no other thread uses. (So at most one thread adds.) -/
def Apart (n : Nat) (prog : Nat → List Op) : Prop :=
  ∀ t u, t ≠ u → ∀ a ∈ prog t, ∀ b ∈ prog u, ∀ i, Sets n a i → ¬Uses n b i

/-- No two calls overlap: a thread makes a step only while all others are between two calls. -/
def NoOverlap (s : St) : List Nat → Prop
  | [] => True
  | t :: ts => (∀ u, u ≠ t → (s.th u).pc = .idle) ∧ ∀ s', step s t = .ok s' → NoOverlap s' ts

/-- One of the calls of a common history: the thread, the call, what it gave. -/
abbrev Entry := Nat × Op × Res

/-- All finished calls of all threads together are a history, in some order, of a list that started as `xs`: every thread has made its calls in its
    order and got what the history says; and if no call is going on, the list is as the history leaves it. -/
def Serial (xs : List (List Byte)) (prog : Nat → List Op) (s : St) : Prop :=
  ∃ (hist : List Entry) (ys : List (List Byte)), Steps xs (hist.map fun e => e.2.1) ys (hist.map fun e => e.2.2) ∧
    (∀ t, prog t = ((hist.filter fun e => e.1 = t).map fun e => e.2.1) ++ (s.th t).calls ∧
      (s.th t).out = (hist.filter fun e => e.1 = t).map fun e => e.2.2) ∧
    ((∀ t, (s.th t).pc = .idle) → Holds s.mem ys)

end Ulz.Sbshare.Spec

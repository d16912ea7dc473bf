import Verif.Model.Tlist
/-! Specification vocabulary for tlist: trees, how a heap holds a tree, and the list a tree stands for. -/
namespace Ulz.Tlist.Spec

/-- A tree of nodes: address, priority, data, children. -/
inductive Tr where
  | nil
  | node (a p : Nat) (d : List Byte) (l r : Tr)

namespace Tr
/-- Number of nodes. -/
def size : Tr → Nat
  | nil => 0
  | node _ _ _ l r => l.size + r.size + 1
/-- Node addresses from left to right. -/
def addrs : Tr → List Nat
  | nil => []
  | node a _ _ l r => l.addrs ++ a :: r.addrs
/-- Stored items from left to right. -/
def items : Tr → List (List Byte)
  | nil => []
  | node _ _ d l r => l.items ++ d :: r.items
/-- Address of the root, NULL for the empty tree. -/
def rootA : Tr → Nat
  | nil => 0
  | node a _ _ _ _ => a
/-- The root's priority is at most `p`. -/
def rootLe (p : Nat) : Tr → Prop
  | nil => True
  | node _ q _ _ _ => q ≤ p
/-- No node has a smaller priority than one of its children. -/
def Prio : Tr → Prop
  | nil => True
  | node _ p _ l r => l.rootLe p ∧ r.rootLe p ∧ l.Prio ∧ r.Prio
end Tr

/-- The heap holds exactly this tree: every node is allocated, has the given priority, data and
    children, and its stored count is the size of its subtree. -/
def Has (h : Heap) : Tr → Prop
  | .nil => True
  | .node a p d l r => a ≠ 0 ∧ h.live a = true ∧ h.prior a = p ∧ h.data a = d ∧
      h.cnt a = (Tr.node a p d l r).size ∧ h.ptr (.left a) = l.rootA ∧ h.ptr (.right a) = r.rootA ∧
      Has h l ∧ Has h r

/-- `t` is a well-formed list whose tree is `T`: the nodes are pairwise distinct, nothing else is
    allocated (no leak), counts are right and priorities are ordered, and no allocated address lies inside
    a node. -/
structure WF (t : TL) (T : Tr) : Prop where
  root : t.heap.ptr .root = T.rootA
  has : Has t.heap T
  nodup : T.addrs.Nodup
  live : ∀ a, t.heap.live a = true ↔ a ∈ T.addrs
  ord : T.Prio
  item : ∀ x ∈ T.items, x.length = t.itemsize
  sep : ∀ a b, t.heap.live a = true → t.heap.live b = true ∨ b ∈ t.heap.ext →
    b ≤ a ∨ a + (hdr + t.itemsize) ≤ b

/-- What a call may do to a mathematical list, and what it returns. Indices of `tlist_get` are reduced
    to `unsigned`. -/
inductive Step : List (List Byte) → Op → List (List Byte) → Res → Prop
  | insert {xs i x a} : i ≤ xs.length → Step xs (.insert i x (some a)) (xs.take i ++ x :: xs.drop i) (.int 1)
  | insertOut {xs i x m} : xs.length < i → Step xs (.insert i x m) xs (.int 0)
  | insertFail {xs i x} : Step xs (.insert i x none) xs (.int 0)
  | append {xs x a} : Step xs (.append x (some a)) (xs ++ [x]) (.int 1)
  | appendFail {xs x} : Step xs (.append x none) xs (.int 0)
  | delete {xs i} : i < xs.length → Step xs (.delete i) (xs.eraseIdx i) (.int 1)
  | deleteOut {xs i} : xs.length ≤ i → Step xs (.delete i) xs (.int 0)
  | get {xs i} : Step xs (.get i) xs (.item xs[i % 2^32]?)
  | getsize {xs} : Step xs .getsize xs (.int xs.length)

/-- A sequence of calls on a mathematical list. -/
inductive Steps : List (List Byte) → List Op → List (List Byte) → List Res → Prop
  | nil {xs} : Steps xs [] xs []
  | cons {xs op ys r ops zs rs} : Step xs op ys r → Steps ys ops zs rs → Steps xs (op :: ops) zs (r :: rs)

/-- What ISO C promises about the address `malloc` returns: not NULL, and the new block overlaps no
    allocated one. -/
def Fresh (t : TL) (a : Nat) : Prop :=
  a ≠ 0 ∧ (∀ b, t.heap.live b = true → a + (hdr + t.itemsize) ≤ b ∨ b + (hdr + t.itemsize) ≤ a) ∧
    ∀ b ∈ t.heap.ext, b < a ∨ a + (hdr + t.itemsize) ≤ b

/-- A call a user may make: items of the right size and a lawful allocator. -/
def OpOk (t : TL) : Op → Prop
  | .insert _ x mem => x.length = t.itemsize ∧ ∀ a, mem = some a → Fresh t a
  | .append x mem => x.length = t.itemsize ∧ ∀ a, mem = some a → Fresh t a
  | _ => True

/-- Every call of the sequence is allowed when it is made. -/
def Valid (t : TL) (ops : List Op) : Prop :=
  ∀ pre op post, ops = pre ++ op :: post → ∀ t' rs, run t pre = .ok (t', rs) → OpOk t' op

end Ulz.Tlist.Spec

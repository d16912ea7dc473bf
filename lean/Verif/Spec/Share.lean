import Verif.Model.Share
import Verif.Spec.Bmap
/-! Specification: what lookups return when they are made one after the other, and what it means that threads do not get in each other's way. -/
namespace Ulz.Share.Spec
open Ulz.Bmap (BM Cfg HCfg)

/-- The index of a key among the entries. -/
def place (cmp : List Byte → List Byte → Int) (S : List (List Byte × List Byte)) (k : List Byte) : Option Nat :=
  S.findIdx? fun e => decide (cmp k e.1 = 0)

/-- The right answer for a call of `op` with key `k`: the index of the key or -1; whether it is there; the pointer to its value or NULL. -/
def answer (cmp : List Byte → List Byte → Int) (S : List (List Byte × List Byte)) (op : LookOp) (k : List Byte) : Res :=
  match op with
  | .find => .idx (place cmp S k)
  | .contains => .bool (place cmp S k).isSome
  | .get => .ptr (place cmp S k)

/-- All finished calls of all threads have returned the right answers. -/
def Answered (cmp : List Byte → List Byte → Int) (S : List (List Byte × List Byte)) (p : Nat → List Call) (s : St) : Prop :=
  ∀ t, ∃ done, p t = done ++ (s.th t).calls ∧ (s.th t).out = done.map fun x => answer cmp S x.op x.key

/-- No two calls overlap: a thread makes a step only while all the others are between two calls. -/
def NoOverlap (c : Cfg) (b : BM) (s : St) : List Nat → Prop
  | [] => True
  | t :: ts => (∀ u, u ≠ t → (s.th u).pc = .idle) ∧ ∀ s', step c b s t = .ok s' → NoOverlap c b s' ts

/-- The same for hbmap, where the right answer is what the call returns if it runs alone. -/
def hanswer (c : HCfg) (h : List BM) (op : LookOp) (k : List Byte) : C HRes := do
  let it ← Bmap.hfind c h k
  pure (match op with
    | .find => .iter it
    | .contains => .bool (!Bmap.isNone it)
    | .get => if Bmap.isNone it then .ptr none else .ptr (some (Bmap.iterBucket it, Bmap.iterIndex it)))

/-- All finished calls of all threads have returned the right answers. -/
def HAnswered (c : HCfg) (h : List BM) (p : Nat → List Call) (s : HSt) : Prop :=
  ∀ t, ∃ done, p t = done ++ (s.th t).calls ∧ (s.th t).out.map Except.ok = done.map fun x => hanswer c h x.op x.key

/-- No two calls overlap. -/
def HNoOverlap (c : HCfg) (h : List BM) (s : HSt) : List Nat → Prop
  | [] => True
  | t :: ts => (∀ u, u ≠ t → (s.th u).pc = .idle) ∧ ∀ s', hstep c h s t = .ok s' → HNoOverlap c h s' ts

end Ulz.Share.Spec

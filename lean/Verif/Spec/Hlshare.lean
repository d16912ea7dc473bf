import Verif.Model.Hlshare
import Verif.Spec.Sbshare
/-! Specification: buckets of values, and calls that do not get in each other's way. -/
namespace Ulz.Hlshare.Spec
open Ulz.Sbshare (upd)

/-- The bucket of a call. -/
def bkt (bc : Nat) (o : Op) : Nat := (hashOf o).toNat % bc

/-- The bucket `d` holds the values `ys`: there is none and `ys` is empty, or it is a well formed list of them (`Sbshare.Spec.Holds`) with items of the right
    size. -/
def HoldsAt (m : Tab) (d : Nat) (ys : List (List Byte)) : Prop :=
  match m.slots d with
  | none => ys = []
  | some l => ∃ q, m.lists l = some q ∧ q.isz = m.ds ∧ q.bi = 8 ∧ Sbshare.Spec.Holds q ys

/-- The hashlist holds the values `f d` in the bucket `d`; no two buckets are the same list; unused numbers are unused. -/
structure Holds (m : Tab) (f : Nat → List (List Byte)) : Prop where
  bc : 0 < m.bc
  ds : 0 < m.ds
  at_ : ∀ d < m.bc, HoldsAt m d (f d)
  sep : ∀ d < m.bc, ∀ e < m.bc, ∀ l, m.slots d = some l → m.slots e = some l → d = e
  unused : ∀ l, m.next ≤ l → m.lists l = none

/-- What a call may do to the values of its bucket, and what it gives. -/
inductive Step : List (List Byte) → Op → List (List Byte) → Res → Prop
  | add {ys h x hdr g} : Step ys (.add h x hdr g) (ys ++ [x]) (.int 0)
  | addFull {ys h x hdr} : Step ys (.add h x hdr none) ys (.int 1)
  | addNone {h x g} : Step [] (.add h x false g) [] (.int (-1))
  | look {ys h i} : Step ys (.look h i) ys (.item ys[i]?)

/-- A sequence of calls; each one concerns its bucket only. -/
inductive Steps (bc : Nat) : (Nat → List (List Byte)) → List Op → (Nat → List (List Byte)) → List Res → Prop
  | nil {f} : Steps bc f [] f []
  | snoc {f ops g rs o zs r} : Steps bc f ops g rs → Step (g (bkt bc o)) o zs r → Steps bc f (ops ++ [o]) (upd g (bkt bc o) zs) (rs ++ [r])

/-- Items handed in have the size of an item. -/
def OpOk (ds : Nat) : Op → Prop
  | .add _ x _ _ => x.length = ds
  | .look _ _ => True

/-- The thread is in the middle of a call on the bucket `d`. -/
def Busy (bc : Nat) (T : Thread) (d : Nat) : Prop := T.pc ≠ .idle ∧ ∃ o os, T.calls = o :: os ∧ bkt bc o = d

/-- No two calls on the same bucket overlap: a thread makes a step only while no other one is in the middle of a call on that bucket. -/
def NoOverlap (s : St) : List Nat → Prop
  | [] => True
  | t :: ts => (∀ u, u ≠ t → ∀ o os, (s.th t).calls = o :: os → ¬Busy s.tab.bc (s.th u) (bkt s.tab.bc o)) ∧
      ∀ s', step s t = .ok s' → NoOverlap s' ts

/-- No two threads use the same bucket. -/
def Apart (bc : Nat) (prog : Nat → List Op) : Prop := ∀ t u, t ≠ u → ∀ a ∈ prog t, ∀ b ∈ prog u, bkt bc a ≠ bkt bc b

/-- One of the calls of a common history: the thread, the call, what it gave. -/
abbrev Entry := Nat × Op × Res

/-- All finished calls of all threads together are a history, in some order, of a hashlist that started with the values `f`: every thread has made its calls
    in its order and got what the history says; and every bucket that no call is going on with holds what the history leaves in it. -/
def Serial (f : Nat → List (List Byte)) (prog : Nat → List Op) (s : St) : Prop :=
  ∃ (hist : List Entry) (g : Nat → List (List Byte)), Steps s.tab.bc f (hist.map fun e => e.2.1) g (hist.map fun e => e.2.2) ∧
    (∀ t, prog t = ((hist.filter fun e => e.1 = t).map fun e => e.2.1) ++ (s.th t).calls ∧
      (s.th t).out = (hist.filter fun e => e.1 = t).map fun e => e.2.2) ∧
    ∀ d < s.tab.bc, (∀ t, ¬Busy s.tab.bc (s.th t) d) → HoldsAt s.tab d (g d)

end Ulz.Hlshare.Spec

import Verif.Model.Mapptr
import Verif.Spec.Ibmap
/-! Specification: what a pointer to a value, kept over calls, shows. -/
namespace Ulz.Mapptr.Spec

/-- How many keys of the entries are smaller than `k`. -/
def rank (cmp : List Byte → List Byte → Int) (S : List (List Byte × List Byte)) (k : List Byte) : Nat :=
  S.countP fun e => decide (cmp e.1 k < 0)

/-- The most entries a map has had, from now on, over a history. -/
def peak (c : Bmap.Cfg) (b : Bmap.BM) : List Bmap.Op → Nat
  | [] => b.keys.count
  | op :: ops => max b.keys.count (match Bmap.step c b op with | .ok (b', _) => peak c b' ops | .error _ => 0)

/-- The key of a call. -/
def key : Bmap.Op → List Byte
  | .insert k _ _ _ | .get k | .contains k | .del k => k

/-- The calls of a history whose keys fall into the same bucket (of `n`) as `k`. -/
def sameBucket (c : Bmap.HCfg) (n : Nat) (k : List Byte) (ops : List Bmap.Op) : List Bmap.Op :=
  ops.filter fun op => decide ((c.hash (key op)).toNat % n = (c.hash k).toNat % n)

/-- No key smaller than `k` is inserted by the calls, and no key deleted that is not greater. -/
def Undisturbed (cmp : List Byte → List Byte → Int) (k : List Byte) (ops : List Bmap.Op) : Prop :=
  ∀ op ∈ ops, match op with
    | .insert k' _ _ _ => ¬ cmp k' k < 0
    | .del k' => cmp k k' < 0
    | _ => True

/-- An item of a list: where it is (`none`: it has been removed), and the value it has (or had when it was removed). -/
structure Item where
  pos : Option Nat
  val : List Byte
  deriving DecidableEq

/-- The item after a call with this result. -/
def Item.after (x : Item) (op : Tglist.IOp) (r : Tglist.Res) : Item :=
  match x.pos with
  | none => x
  | some i =>
    match op, r with
    | .insert _ pos _ _, .int 1 => { x with pos := some (if pos ≤ i then i + 1 else i) }
    | .delete pos, _ => { x with pos := if pos = i then none else some (if pos < i then i - 1 else i) }
    | .set v pos, _ => if pos = i then { x with val := v } else x
    | _, _ => x

/-- The item after a history. -/
def Item.follow (x : Item) : List Tglist.IOp → List Tglist.Res → Item
  | op :: ops, r :: rs => (x.after op r).follow ops rs
  | _, _ => x

/-- An entry of a map: whether it has been in it all the time, and the value it has (or had when it was removed). -/
structure Entry where
  here : Bool
  val : List Byte
  deriving DecidableEq

/-- The entry of key `k` after a call: an insertion of an equal key while it is there changes the value, a deletion ends it. -/
def Entry.after (cmp : List Byte → List Byte → Int) (k : List Byte) (x : Entry) : Ibmap.Op → Entry
  | .insert k' v _ _ _ => if x.here ∧ cmp k' k = 0 then { x with val := v } else x
  | .del k' => if cmp k' k = 0 then { x with here := false } else x
  | _ => x

/-- The entry after a history. -/
def Entry.follow (cmp : List Byte → List Byte → Int) (k : List Byte) (x : Entry) (ops : List Ibmap.Op) : Entry :=
  ops.foldl (Entry.after cmp k) x

/-- How many calls of a history try to store another value. -/
def stores (ops : List Tglist.IOp) : Nat := ops.countP fun op => match op with | .add .. | .insert .. => true | _ => false

/-- The same for a map. -/
def inserts (ops : List Ibmap.Op) : Nat := ops.countP fun op => match op with | .insert .. => true | _ => false

end Ulz.Mapptr.Spec

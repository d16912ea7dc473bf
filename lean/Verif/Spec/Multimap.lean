import Verif.Model.Multimap
import Verif.Spec.Bmap
/-! Specification: a bag of entries, as a list taken up to permutation. -/
namespace Ulz.Multimap.Spec
open Ulz.Bmap (Cfg BM Res)
open Ulz.Bmap.Spec (CfgOk)

abbrev Entry := List Byte × List Byte
abbrev Cmp := List Byte → List Byte → Int

/-- What a call may do to a bag of entries `S`, and what it may return. Where several entries have the key,
    it is left open which of them is found. -/
inductive Step (cmp : Cmp) : List Entry → Op → List Entry → Res → Prop
  /-- a blind insertion adds an entry, whatever is there already -/
  | nocheck {S S' k v a1 a2 i} : S'.Perm ((k, v) :: S) → Step cmp S (.nocheck k v a1 a2) S' (.idx (some i))
  | nocheckFail {S S' k v a1 a2} : a1 = none ∨ a2 = none → S'.Perm S → Step cmp S (.nocheck k v a1 a2) S' (.idx none)
  /-- a checked insertion adds an entry if there is none with the key -/
  | insertNew {S S' k v a1 a2 i} : (∀ e ∈ S, cmp k e.1 ≠ 0) → S'.Perm ((k, v) :: S) →
      Step cmp S (.base (.insert k v a1 a2)) S' (.idx (some i))
  /-- otherwise it gives one of the entries with the key a new value -/
  | insertOld {S S' k v a1 a2 i e R} : cmp k e.1 = 0 → S.Perm (e :: R) → S'.Perm ((e.1, v) :: R) →
      Step cmp S (.base (.insert k v a1 a2)) S' (.idx (some i))
  | insertFail {S S' k v a1 a2 r} : (∀ e ∈ S, cmp k e.1 ≠ 0) → a1 = none ∨ a2 = none → S'.Perm S →
      Step cmp S (.base (.insert k v a1 a2)) S' (.idx r)
  | getSome {S S' k e} : e ∈ S → cmp k e.1 = 0 → S'.Perm S → Step cmp S (.base (.get k)) S' (.item (some e.2))
  | getNone {S S' k} : (∀ e ∈ S, cmp k e.1 ≠ 0) → S'.Perm S → Step cmp S (.base (.get k)) S' (.item none)
  | contains {S S' k} : S'.Perm S → Step cmp S (.base (.contains k)) S' (.bool (S.any fun e => cmp k e.1 = 0))
  /-- a deletion removes one entry with the key -/
  | del {S S' k e} : cmp k e.1 = 0 → S.Perm (e :: S') → Step cmp S (.base (.del k)) S' (.bool true)
  | delNone {S S' k} : (∀ e ∈ S, cmp k e.1 ≠ 0) → S'.Perm S → Step cmp S (.base (.del k)) S' (.bool false)

inductive Steps (cmp : Cmp) : List Entry → List Op → List Entry → List Res → Prop
  | nil {S} : Steps cmp S [] S []
  | cons {S op S' r ops S'' rs} : Step cmp S op S' r → Steps cmp S' ops S'' rs → Steps cmp S (op :: ops) S'' (r :: rs)

/-- Keys and values have the sizes of their types. -/
def OpOk (c : Cfg) : Op → Prop
  | .nocheck k v _ _ => k.length = c.ksz ∧ v.length = c.vsz
  | .base op => Bmap.Spec.OpOk c op

/-- The map object lists the entries `S` in index order. -/
def Lists (c : Cfg) (b : BM) (S : List Entry) : Prop :=
  b.keys.count = S.length ∧ b.values.count = S.length ∧
    ∀ i (h : i < S.length), Bmap.getkey c b i = .ok S[i].1 ∧ Bmap.getval c b i = .ok S[i].2

/-- The number of entries with key `k`. -/
def mult (cmp : Cmp) (S : List Entry) (k : List Byte) : Nat := (S.filter fun e => cmp k e.1 = 0).length

/-- All that is asked of `bsearch` when the comparison function is arbitrary: what it returns is an element
    of the array, or NULL. -/
def InBounds (bs : List Byte → List (List Byte) → Cmp → Option Nat) : Prop :=
  ∀ key xs cmp i, bs key xs cmp = some i → i < xs.length

/-- How an operation may change the entries when the comparison function is arbitrary: one is added, one gets
    another value, one is removed, or nothing changes. -/
inductive Touch : List Entry → Op → List Entry → Prop
  | same {S op} : Touch S op S
  | addBlind {A B k v a1 a2} : Touch (A ++ B) (.nocheck k v a1 a2) (A ++ (k, v) :: B)
  | add {A B k v a1 a2} : Touch (A ++ B) (.base (.insert k v a1 a2)) (A ++ (k, v) :: B)
  | set {A B e k v a1 a2} : Touch (A ++ e :: B) (.base (.insert k v a1 a2)) (A ++ (e.1, v) :: B)
  | remove {A B e k} : Touch (A ++ e :: B) (.base (.del k)) (A ++ B)

inductive Touches : List Entry → List Op → List Entry → Prop
  | nil {S} : Touches S [] S
  | cons {S op S' ops S''} : Touch S op S' → Touches S' ops S'' → Touches S (op :: ops) S''

end Ulz.Multimap.Spec

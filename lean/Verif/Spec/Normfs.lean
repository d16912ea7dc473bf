import Verif.Spec.Filelib
/-! What an absolute path names: directories, files and symbolic links, and following a path through them. Nothing here is code of
    the library: it is the usual rule of a Unix system, without permissions, mount points, limits and loops (a loop of links leads
    nowhere). -/
namespace Ulz.Normfs.Spec
open Ulz.Filelib.Spec (components)

/-- What can be at a place. A link holds the path it stands for. -/
inductive Node
  | dir
  | file
  | link (target : List Byte)
deriving DecidableEq

/-- A place is given by the names that lead to it from the root, without links. -/
abbrev Place := List (List Byte)

/-- What is at every place; `none` is nothing. -/
abbrev Fs := Place → Option Node

/-- Names that a file can have. -/
def Name (n : List Byte) : Prop := n ≠ [] ∧ n ≠ bytes! "." ∧ n ≠ bytes! ".." ∧ ch '/' ∉ n ∧ (0 : Byte) ∉ n

/-- The root is a directory, and whatever else there is has a name and is in a directory. -/
def Sound (fs : Fs) : Prop := fs [] = some .dir ∧ ∀ l n, fs (l ++ [n]) ≠ none → fs l = some .dir ∧ Name n

/-- There are no links. -/
def Linkfree (fs : Fs) : Prop := ∀ l t, fs l ≠ some (.link t)

/-- Where a path starts that is met in the directory `here`. -/
def origin (here : Place) (t : List Byte) : Place := if t.head? = some (ch '/') then [] else here

/-- Following the components from a place leads to another. Only a directory can be passed; the root is its own parent; a link is
    followed at once. -/
inductive Leads (fs : Fs) : Place → List (List Byte) → Place → Prop
  | done {a} : Leads fs a [] a
  | stay {a c cs l} : fs a = some .dir → c = [] ∨ c = bytes! "." → Leads fs a cs l → Leads fs a (c :: cs) l
  | up {a cs l} : fs a = some .dir → Leads fs a.dropLast cs l → Leads fs a (bytes! ".." :: cs) l
  | down {a n cs l} : fs a = some .dir → n ≠ [] → n ≠ bytes! "." → n ≠ bytes! ".." → fs (a ++ [n]) = some .dir ∨ fs (a ++ [n]) = some .file →
      Leads fs (a ++ [n]) cs l → Leads fs a (n :: cs) l
  | link {a n t m cs l} : fs a = some .dir → n ≠ [] → n ≠ bytes! "." → n ≠ bytes! ".." → fs (a ++ [n]) = some (.link t) → t ≠ [] →
      Leads fs (origin a t) (components t) m → Leads fs m cs l → Leads fs a (n :: cs) l

/-- An absolute path names a place. -/
def Names (fs : Fs) (path : List Byte) (l : Place) : Prop := path.head? = some (ch '/') ∧ Leads fs [] (components path) l

end Ulz.Normfs.Spec

import Verif.Model.Listfiles
import Verif.Spec.Filelist
import Verif.Spec.Stringptr
/-! Specification for the programs that list a directory tree. -/
namespace Ulz.Listfiles.Spec
open Ulz.Filelist.Spec (pattern escape)

/-- The contents of a directory, in the order in which glob gives them. A directory that cannot be listed is `closed`. -/
inductive Tree where
  | nil
  | file (name : List Byte) (rest : Tree)
  | dir (name : List Byte) (sub rest : Tree)
  | closed (name : List Byte) (rest : Tree)

/-- The path of a directory in the directory with the path `p`; paths of directories end with a slash. -/
def below (p name : List Byte) : List Byte := p ++ name ++ [ch '/']

/-- The paths of the entries of the directory with the path `p`, those of directories with a slash. -/
def Tree.entries (p : List Byte) : Tree → List (List Byte)
  | .nil => []
  | .file n r => (p ++ n) :: r.entries p
  | .dir n _ r => below p n :: r.entries p
  | .closed n r => below p n :: r.entries p

/-- What `find` prints for the contents of a directory: the paths of all files and directories, every directory before its contents
    (and here with a slash). -/
def Tree.find (p : List Byte) : Tree → List (List Byte)
  | .nil => []
  | .file n r => (p ++ n) :: r.find p
  | .dir n s r => below p n :: (s.find (below p n) ++ r.find p)
  | .closed n r => below p n :: r.find p

/-- The same without the directories that cannot be listed. -/
def Tree.listed (p : List Byte) : Tree → List (List Byte)
  | .nil => []
  | .file n r => (p ++ n) :: r.listed p
  | .dir n s r => below p n :: (s.listed (below p n) ++ r.listed p)
  | .closed _ r => r.listed p

/-- The number of directories that cannot be listed. -/
def Tree.closeds : Tree → Nat
  | .nil => 0
  | .file _ r => r.closeds
  | .dir _ s r => s.closeds + r.closeds
  | .closed _ r => r.closeds + 1

/-- What may be the name of an entry (NAME_MAX is 255). -/
def ValidName (n : List Byte) : Prop := n ≠ [] ∧ n.length ≤ 255 ∧ 0 ∉ n ∧ ch '/' ∉ n ∧ n ≠ bytes! "." ∧ n ≠ bytes! ".."

/-- glob shows the contents `t` of the directory `p`, and possibly `.` and `..`, and the path is short enough for a search. (On a real
    system it does so if `p` contains no backslash, C99.) -/
def Shows (e : Env) (p : List Byte) (t : Tree) : Prop :=
  (escape p).length + 3 < 4096 ∧ ∃ ps : List (List Byte), (∀ q ∈ ps, 0 ∉ q) ∧ e.glob (pattern p (bytes! "*")) true = .ok (ps.map (· ++ [0])) ∧
    ps.filter (fun q => q ≠ p ++ bytes! "./" ∧ q ≠ p ++ bytes! "../") = t.entries p

/-- The path is too long for a search, or glob fails. -/
def Fails (e : Env) (p : List Byte) : Prop :=
  4096 ≤ (escape p).length + 3 ∨ ∃ r, r ≠ 0 ∧ e.glob (pattern p (bytes! "*")) true = .error r

/-- The contents of the directory `p` are `t`, as far as the directories in it are concerned. -/
def Tree.Mounted (e : Env) (p : List Byte) : Tree → Prop
  | .nil => True
  | .file n r => ValidName n ∧ r.Mounted e p
  | .dir n s r => ValidName n ∧ Shows e (below p n) s ∧ s.Mounted e (below p n) ∧ r.Mounted e p
  | .closed n r => ValidName n ∧ Fails e (below p n) ∧ r.Mounted e p

/-- The path of the directory for the argument `d`. -/
def start (d : List Byte) : List Byte := if d.getLast? = some (ch '/') then d else d ++ [ch '/']

/-- The number of slashes. -/
def slashes (p : List Byte) : Nat := p.count (ch '/')

/-- What is known of glob whatever the file system looks like: it returns strings, its errors are not 0, and a directory that it returns
    has more slashes than the one that was searched. -/
structure Env.Ok (e : Env) : Prop where
  buf : e.buf.length = 4096
  strings : ∀ p b ps, e.glob p b = .ok ps → ∃ ts : List (List Byte), ps = ts.map (· ++ [0]) ∧ ∀ t ∈ ts, 0 ∉ t ∧ t.length < 2^62
  errors : ∀ p b r, e.glob p b = .error r → r ≠ 0
  deeper : ∀ d b ps t, e.glob (pattern d (bytes! "*")) b = .ok ps → t ++ [0] ∈ ps → t.getLast? = some (ch '/') → slashes d < slashes t

end Ulz.Listfiles.Spec

import Verif.Model.Samefiles
import Verif.Spec.Filelist
/-! Specification for the traversal of find_identical_files. -/
namespace Ulz.Samefiles.Spec
open Ulz.Filelist.Spec (pattern Entries escape)

/-- The path of the entry `f` of the directory `d`. -/
def join (d f : List Byte) : List Byte := d ++ (if d.getLast? = some (ch '/') then [] else [ch '/']) ++ f

/-- The name of a directory, as glob marks it. -/
def IsDir (f : List Byte) : Prop := f.getLast? = some (ch '/')
instance (f : List Byte) : Decidable (IsDir f) := inferInstanceAs (Decidable (_ = _))

/-- The surroundings are those of a real system: the path buffer has its size, glob returns zero-terminated strings and its errors
    are not 0. -/
structure Env.Ok (e : Env) : Prop where
  buf : e.buf.length = 4096
  strings : ∀ p b ps, e.glob p b = .ok ps → ∃ ts : List (List Byte), ps = ts.map (· ++ [0]) ∧ ∀ t ∈ ts, 0 ∉ t ∧ t.length < 2^62
  errors : ∀ p b r, e.glob p b = .error r → r ≠ 0

/-- The files and directories in `d` as glob finds them, without `./` and `../`; the path is short enough. -/
def Lists (e : Env) (d : List Byte) (ns : List (List Byte)) : Prop :=
  d ≠ [] ∧ 0 ∉ d ∧ (escape d).length + 3 < 4096 ∧
  ∃ ps, (∀ p ∈ ps, 0 ∉ p) ∧ e.glob (pattern d (bytes! "*")) true = .ok (ps.map (· ++ [0])) ∧ Entries 12 ps ns

/-- `rel` is the path, relative to both directories, of a file that exists in both. -/
inductive Common (e : Env) : List Byte → List Byte → List Byte → Prop
  | file {d1 d2 ns1 ns2 f} : Lists e d1 ns1 → Lists e d2 ns2 → f ∈ ns1 → f ∈ ns2 → ¬ IsDir f → Common e d1 d2 f
  | dir {d1 d2 ns1 ns2 f rel} : Lists e d1 ns1 → Lists e d2 ns2 → f ∈ ns1 → f ∈ ns2 → IsDir f → Common e (join d1 f) (join d2 f) rel →
      Common e d1 d2 (f ++ rel)

/-- Both directories and all directories below them that exist on both sides can be listed, the lists of the first have no name
    twice, and the files that exist on both sides can be read. -/
inductive Walkable (e : Env) : List Byte → List Byte → Prop
  | mk {d1 d2 ns1 ns2} : Lists e d1 ns1 → Lists e d2 ns2 → ns1.Nodup →
      (∀ f ∈ ns1, f ∈ ns2 → IsDir f → Walkable e (join d1 f) (join d2 f)) →
      (∀ f ∈ ns1, f ∈ ns2 → ¬ IsDir f → (e.data (join d1 f)).isSome ∧ (e.data (join d2 f)).isSome) → Walkable e d1 d2

end Ulz.Samefiles.Spec

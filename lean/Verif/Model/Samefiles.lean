import Verif.Model.Programs
import Verif.Model.Filelist
/-! Model of the directory traversal and the main function of examples/find_identical_files.c. Allocations succeed. -/
namespace Ulz.Samefiles
open Ulz.Programs (fullNames endsWithSlash printed)

/-- The surroundings of the program: `glob` as in Filelist, `buf` the uninitialised path buffer, `data` the contents of the files
    that exist (they can be read), and `junk k`, the value that the k-th completed call of process_path seems to return. -/
structure Env where
  glob : List Byte → Bool → Except Int (List (List Byte))
  buf : List Byte
  data : List Byte → Option (List Byte)
  junk : Nat → Int

/-- examples/find_identical_files.c:35-38: filelist_search(&fl, dir, "*", FLF_EXCLUDE_PATH|FLF_INCLUDE_HIDDEN), with the texts of
    the list. -/
def search (e : Env) (d : List Byte) : C (Int × List (List Byte)) := do
  let (r, fs) ← Filelist.filelist_search true (some ⟨d ++ [0], d.length⟩) (some ⟨bytes! "*" ++ [0], 1⟩) 12 e.buf e.glob true (fun _ => true)
  pure (r, fs.map fun s => s.buf.take s.size)

/-- examples/find_identical_files.c:40-61: the loop over the files of the first directory; `rec` is process_path. The names
    printed, the value returned if the function is left in the loop, the number of completed calls of process_path.
    stringptrlist_contains is membership. -/
def entries (e : Env) (mode : Nat) (rec : List Byte → List Byte → Nat → C (List (List Byte) × Int × Nat)) (d1 d2 : List Byte)
    (ns2 : List (List Byte)) : List (List Byte) → Nat → C (List (List Byte) × Option Int × Nat)
  | [], k => pure ([], none, k)
  | f :: fs, k =>
    if f ∈ ns2 then
      if endsWithSlash f then do
        let (o, r, k) ← rec (fullNames d1 d2 f).1 (fullNames d1 d2 f).2 k
        if r ≠ 0 then pure (o, some r, k)
        else do
          let (o', r, k) ← entries e mode rec d1 d2 ns2 fs k
          pure (o ++ o', r, k)
      else do
        let x1 := e.data (fullNames d1 d2 f).1
        let x2 := e.data (fullNames d1 d2 f).2
        let b ← printed mode (x1.map List.length) (x2.map List.length) x1 x2
        let (o, r, k) ← entries e mode rec d1 d2 ns2 fs k
        pure ((if b then [(fullNames d1 d2 f).1] else []) ++ o, r, k)
    else entries e mode rec d1 d2 ns2 fs k

/-- examples/find_identical_files.c:32-64: the names printed, the value returned and the number of completed calls. The function
    has no return statement at its end although its value is used, which the standard leaves undefined; here the value is
    arbitrary (`junk`). -/
def process_path (e : Env) (mode : Nat) : (fuel : Nat) → (d1 d2 : List Byte) → (k : Nat) → C (List (List Byte) × Int × Nat)
  | 0, _, _, _ => .error .hang
  | fuel + 1, d1, d2, k => do
    let (r, ns1) ← search e d1
    if r ≠ 0 then pure ([], r, k)
    else do
      let (r, ns2) ← search e d2
      if r ≠ 0 then pure ([], r, k)
      else do
        let (o, r, k) ← entries e mode (process_path e mode fuel) d1 d2 ns2 ns1 k
        match r with
        | some r => pure (o, r, k)
        | none => pure (o, e.junk k, k + 1)

/-- examples/find_identical_files.c:66-75, 77-84: what is written to standard output and the exit status; `args` are the arguments
    without the program's name. `usage` writes to standard error. Every name is printed with a newline (lines 55-56). The depth of
    the recursion is limited by the length of paths. -/
def main (e : Env) (args : List (List Byte)) : C (List Byte × Int) :=
  match args with
  | [m, d1, d2] => do
    let mode := if (← rd (m ++ [0]) 0) = ch 'i' then 0 else 1
    let (o, r, _) ← process_path e mode 4097 d1 d2 0
    pure (o.flatMap (· ++ [ch '\n']), r)
  | _ => pure ([], 1)

end Ulz.Samefiles

import Verif.Model.Filelist
import Verif.Model.Output
/-! Model of examples/filelist_find_test.c and examples/filelist_find_test2.c, which list a directory tree. Output is what is written
    to standard output. Apart from the one of main in the first program, allocations succeed. -/
namespace Ulz.Listfiles
open Ulz.Stringptr (SP)
open Ulz.Output (log_puts log_putln)

/-- The surroundings of the programs: `glob` as in Filelist and `buf`, the uninitialised path buffer. -/
structure Env where
  glob : List Byte → Bool → Except Int (List (List Byte))
  buf : List Byte

/-- examples/filelist_find_test.c:5-7 = examples/filelist_find_test2.c:12-14. -/
def isdir (file : SP) : C Bool :=
  if file.size ≠ 0 then do pure (decide ((← rd file.buf (file.size - 1)) = ch '/')) else pure false

/-- examples/filelist_find_test.c:9-17 = examples/filelist_find_test2.c:16-24. -/
def syntax_text : List Byte :=
  bytes! "prog dir\nlists all files in dir. the output should be equivalent to\nfind dir -name '*'\nat least regarding number of returned entries.\n"

/-- log_puts(1, s); log_putln(1); -/
def line (s : Option SP) : C (List Byte) := do pure ((← log_puts s) ++ log_putln)

/-- filelist_search(&f, dir, SPL("*"), flags). -/
def search (e : Env) (dir : Option SP) (flags : BitVec 32) : C (Int × List SP) :=
  Filelist.filelist_search true dir (some ⟨bytes! "*" ++ [0], 1⟩) flags e.buf e.glob true (fun _ => true)

/-- examples/filelist_find_test.c:26-32: the loop; `rec` is doDir. -/
def files1 (rec : Option SP → C (List Byte)) : List SP → C (List Byte)
  | [] => pure []
  | file :: fs => do
    let o ← if ← isdir file then rec (some file) else line (some file)
    pure (o ++ (← files1 rec fs))

/-- examples/filelist_find_test.c:19-35. -/
def doDir1 (e : Env) : (fuel : Nat) → Option SP → C (List Byte)
  | 0, _ => .error .hang
  | fuel + 1, dir => do
    let (r, fs) ← search e dir 8
    if r ≠ 0 then pure []
    else do
      let o ← line dir
      pure (o ++ (← files1 (doDir1 e fuel) fs))

/-- examples/filelist_find_test.c:37-50: the output and the exit status; `args` are the arguments without the program's name. The
    depth of the recursion is limited by the length of paths. -/
def main1 (e : Env) (a : Alloc) (args : List (List Byte)) : C (List Byte × Int) :=
  match args with
  | [d] => do
    let srcdir ← Stringptr.fromchar (some (d ++ [0]))
    let dir ← if ← isdir srcdir then pure (some srcdir) else Stringptr.concat a srcdir [⟨bytes! "/" ++ [0], 1⟩]
    pure (← doDir1 e 4097 dir, 0)
  | _ => pure (syntax_text, 1)

/-- stringptr_concat(x, y, NULL), the memory being there. -/
def cat (junk : Nat → Byte) (x y : SP) : C SP := do
  match ← Stringptr.concat (some junk) x [y] with
  | none => .error .nullDeref
  | some r => pure r

/-- examples/filelist_find_test2.c:35-45: the loop; `rec` is doDir. -/
def files2 (junk : Nat → Byte) (rec : SP → C (List Byte)) (subd combined : SP) : List SP → C (List Byte)
  | [] => pure []
  | file :: fs => do
    let both ← cat junk combined file
    let o ← if ← isdir file then do rec (← cat junk subd file) else line (some both)
    pure (o ++ (← files2 junk rec subd combined fs))

/-- examples/filelist_find_test2.c:26-50. -/
def doDir2 (e : Env) (junk : Nat → Byte) (srcdir : SP) : (fuel : Nat) → SP → C (List Byte)
  | 0, _ => .error .hang
  | fuel + 1, subd => do
    let combined ← cat junk srcdir subd
    let (r, fs) ← search e (some combined) 12
    if r ≠ 0 then pure []
    else do
      let o ← line (some combined)
      pure (o ++ (← files2 junk (doDir2 e junk srcdir fuel) subd combined fs))

/-- examples/filelist_find_test2.c:52-61. -/
def main2 (e : Env) (junk : Nat → Byte) (args : List (List Byte)) : C (List Byte × Int) :=
  match args with
  | [d] => do
    let srcdir ← Stringptr.fromchar (some (d ++ [0]))
    let subd : SP := if ← isdir srcdir then ⟨[0], 0⟩ else ⟨bytes! "/" ++ [0], 1⟩
    pure (← doDir2 e junk srcdir 4097 subd, 0)
  | _ => pure (syntax_text, 1)

end Ulz.Listfiles

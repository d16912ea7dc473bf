import Verif.Model.Fpio
import Verif.Model.Hex
import Verif.Model.Wholefile
/-! Model of the example programs fileparser_test, which prints a file line by line, and stringptr_test1, which saves a text. -/
namespace Ulz.Linecat
open Ulz.Fileparser (Fd FP openFile)
open Ulz.Fpio (Ans readline)

/-- ISO C `puts`: what it writes to the standard output. -/
def puts (s : List Byte) : C (List Byte) := do
  let n ← Hex.strlen s
  pure ((← rdN s 0 n) ++ [ch '\n'])

/-- examples/fileparser_test.c:14-15: the loop; `ans k` is what the system answers in the k-th call. The result is what is
    printed. -/
def loop (ans : Nat → Ans) : (fuel k : Nat) → Fd → FP → C (List Byte)
  | 0, _, _, _ => .error .hang
  | fuel + 1, k, f, p => do
    let (f, p, r) ← readline (ans k) f p
    if r = 0 then do
      let t ← puts p.buf
      let rest ← loop ans fuel (k + 1) f p
      pure (t ++ rest)
    else pure []

/-- examples/fileparser_test.c:8-19. `opened` is what `open` gave: the content of the file and the descriptor, or `none`, when the
    descriptor in the parser is -1 (src/fileparser/fileparser_open.c:11), for which every `read` fails with EBADF (9). `fpos`,
    `len` and `uninit` are the uninitialised fields of the parser. The result is what is printed;
    for fileparser_close see `Misc.fp_close`. -/
def main (ans : Nat → Ans) (opened : Option (List Byte × Int)) (fpos len : Nat) (uninit : List Byte) : C (List Byte) :=
  match opened with
  | none => loop (fun k => ⟨.fail 9, (ans k).s⟩) 1 0 ⟨[], 0⟩ ⟨fpos, len, uninit, -1⟩
  | some (data, fd) =>
    let (f, p) := openFile data fd uninit len
    loop ans (data.length + 1) 0 f p

/-- examples/stringptr_test1.c:3-10: the new content of test.txt, if it can be opened. -/
def save (opens : Bool) (answers : List (Option Nat)) : C (Option (List Byte)) := do
  let (file, _) ← Wholefile.stringptr_tofile true opens (some ⟨bytes! "test" ++ [0], 4⟩) answers
  pure file

end Ulz.Linecat

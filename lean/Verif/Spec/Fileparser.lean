import Verif.Model.Fileparser
/-! Specification for the line reader. -/
namespace Ulz.Fileparser.Spec

/-- `data` consists of the texts `full`, each followed by a line feed, and of `last`, which is not followed by one;
    none of them contains a line feed. -/
structure Content (data : List Byte) (full : List (List Byte)) (last : List Byte) : Prop where
  eq : data = (full.map (· ++ [ch '\n'])).flatten ++ last
  lf : ∀ l ∈ full, ch '\n' ∉ l
  lf' : ch '\n' ∉ last

/-- The lines of such a file: an empty last text is no line. -/
def linesOf (full : List (List Byte)) (last : List Byte) : List (List Byte) := full ++ if last = [] then [] else [last]

/-- A client that reads lines into its buffer until a call does not return 0: the lines, and the last result. -/
def readAll (bufsize : Nat) : (fuel : Nat) → Fd → FP → List Byte → C (List (List Byte) × Int)
  | 0, _, _, _ => .error .hang
  | fuel + 1, f, p, buf => do
    let (f, p, buf, r) ← readline_userbuf f p buf bufsize
    if r = 0 then
      let line ← rdN buf 0 p.len
      let (ls, r) ← readAll bufsize fuel f p buf
      pure (line :: ls, r)
    else pure ([], r)

/-- A line that stringptrlist_fromfile takes. -/
def Taken (l : List Byte) : Bool := l ≠ [] ∧ l.length < 1024

end Ulz.Fileparser.Spec

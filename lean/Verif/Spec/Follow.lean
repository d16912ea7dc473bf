import Verif.Model.Follow
/-! Specification for reading a growing file. -/
namespace Ulz.Follow.Spec
open Ulz.Follow

/-- A writer that appends whole lines (without line feeds in them), or a reader's call. -/
inductive LEv where
  | lines (ls : List (List Byte))
  | read

/-- The bytes such a writer appends. -/
def enc (ls : List (List Byte)) : List Byte := (ls.map (· ++ [ch '\n'])).flatten

def LEv.ev : LEv → Ev
  | .lines ls => .append (enc ls)
  | .read => .read

/-- What the reader should get: the lines come out of a queue; -2 if it is empty. -/
def queue (q : List (List Byte)) : List LEv → List Out
  | [] => []
  | .lines ls :: es => queue (q ++ ls) es
  | .read :: es =>
    match q with
    | [] => .code (-2) :: queue [] es
    | l :: q => .line l :: queue q es

/-- What the reader gets from any file, by the bytes that are left of it. `lost` counts the bytes that the next
    line feed or overlong line makes it skip. -/
def serve (n : Nat) (rest : List Byte) (lost : Nat) : Nat × Nat × Out :=
  let l := rest.takeWhile (· ≠ ch '\n')
  if rest = [] then (0, lost, .code (-2))
  else if n ≤ l.length then (lost, 0, .code (-3))
  else if l = rest then (l.length, lost + 1, .line l)
  else (l.length + 1 + lost, 0, .line l)

/-- A history on the contents, the position and the number of bytes to be skipped. -/
def serveAll (n : Nat) (data : List Byte) (pos lost : Nat) : List Ev → List Out
  | [] => []
  | .append x :: es => serveAll n (data ++ x) pos lost es
  | .read :: es =>
    let (skip, lost', o) := serve n (data.drop pos) lost
    o :: serveAll n data (pos + skip) lost' es

end Ulz.Follow.Spec

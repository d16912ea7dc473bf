import Verif.Model.Fileparser
/-! Reading a file line by line (src/fileparser) while another program appends to it. -/
namespace Ulz.Follow
open Ulz.Fileparser (Fd FP readline_userbuf)

/-- What happens: bytes are appended to the file, or the reader calls `fileparser_readline_userbuf`. -/
inductive Ev where
  | append (x : List Byte)
  | read
  deriving DecidableEq

/-- What the reader gets: a line, or a result that is not 0. -/
inductive Out where
  | line (l : List Byte)
  | code (r : Int)
  deriving DecidableEq, Repr

/-- The file, the parser and the reader's buffer. -/
structure St where
  f : Fd
  p : FP
  buf : List Byte
  deriving DecidableEq, Repr

/-- One event; the buffer is used in full (src/fileparser/fileparser_readline.c:3-5 does so too). After a result of 0 the
    reader takes `len` bytes from the buffer (src/fileparser/fileparser_getline.c:3-10). -/
def step (s : St) : Ev → C (St × List Out)
  | .append x => pure ({ s with f := { s.f with data := s.f.data ++ x } }, [])
  | .read => do
    let (f, p, buf, r) ← readline_userbuf s.f s.p s.buf s.buf.length
    if r = 0 then pure (⟨f, p, buf⟩, [.line (← rdN buf 0 p.len)]) else pure (⟨f, p, buf⟩, [.code r])

/-- A history: the final state and everything the reader got. -/
def run (s : St) : List Ev → C (St × List Out)
  | [] => pure (s, [])
  | e :: es => do
    let (s, o) ← step s e
    let (s, os) ← run s es
    pure (s, o ++ os)

end Ulz.Follow

import Verif.Model.Follow
/-! Reading a file line by line (src/fileparser) while another program changes it: truncates it, writes over it, or saves a new text to
    it (a log file that is rotated in place). -/
namespace Ulz.Rotate
open Ulz.Follow (Out St)

/-- What happens: the file gets another content, or the reader calls `fileparser_readline_userbuf`. -/
inductive Ev where
  | change (c : List Byte)
  | read
  deriving DecidableEq

/-- One event; a call is that of `Follow` (src/fileparser/fileparser_readline_userbuf.c:3-28, src/fileparser/fileparser_getline.c:3-10). A
    change does not move the offset of the reader's descriptor. -/
def step (s : St) : Ev → C (St × List Out)
  | .change c => pure ({ s with f := { s.f with data := c } }, [])
  | .read => Follow.step s .read

/-- A history: the final state and everything the reader got. -/
def run (s : St) : List Ev → C (St × List Out)
  | [] => pure (s, [])
  | e :: es => do
    let (s, o) ← step s e
    let (s, os) ← run s es
    pure (s, o ++ os)

end Ulz.Rotate

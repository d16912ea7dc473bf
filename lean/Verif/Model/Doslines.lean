import Verif.Model.Stringptr
/-! Splitting a text into lines and removing the line ends. -/
namespace Ulz.Doslines
open Ulz.Stringptr

/-- A caller: `for(i = 0; i < stringptrlist_getsize(l); i++) stringptr_chomp(stringptrlist_get(l, i));` for a list whose entries point into
    one buffer (src/stringptr/stringptr_chomp.c:8-13). Result: the buffer and the entries afterwards. -/
def chompAll : List Byte → List Piece → C (List Byte × List Piece)
  | buf, [] => pure (buf, [])
  | buf, p :: ps => do
    let (s, _) ← chomp ⟨buf.drop p.1, p.2⟩
    let (buf, qs) ← chompAll (buf.take p.1 ++ s.buf) ps
    pure (buf, (p.1, s.size) :: qs)

/-- `stringptr_linesplit` (include/stringptrlist.h:49, that is stringptr_splitc at LF) and this loop; the list can grow. -/
def lines (s : SP) : C (List Byte × List Piece) := do
  let (buf, ps) ← splitc s (ch '\n').toInt (fun _ => true)
  chompAll buf ps

end Ulz.Doslines

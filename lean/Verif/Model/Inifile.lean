import Verif.Model.Iniparser
/-! Looking up a value in the text of an INI file, as examples/iniparser_test.c does it: stringptr_linesplit,
iniparser_get_section, iniparser_getvalue. -/
namespace Ulz.Inifile
open Ulz.Stringptr (SP Piece splitc)
open Ulz.Iniparser (Sect get_section getvalue)

/-- The entries of the list that stringptr_splitc makes: addresses in the buffer, which it has changed. -/
def entries (buf : List Byte) (ps : List Piece) : List SP := ps.map fun p => ⟨buf.drop p.1, p.2⟩

/-- examples/iniparser_test.c:10-15: the text, section and key are arguments here; `ok k` tells whether the
    list can grow for line `k`. The result is `none` for NULL. -/
def lookup (ini : SP) (ok : Nat → Bool) (sec key : SP) : C (Option SP) := do
  let (buf, ps) ← splitc ini 10 ok
  let lines := entries buf ps
  let s ← get_section lines sec
  getvalue lines s key

end Ulz.Inifile

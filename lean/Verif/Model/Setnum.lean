import Verif.Model.Settings
import Verif.Model.Numbers
/-! Numbers kept in a settings file. -/
namespace Ulz.Setnum
open Ulz.Stringptr (SP)

/-- A caller: reads the file with stringptr_fromfile and stringptr_linesplit, looks up the setting
    (src/iniparser/iniparser.c:36-38 and 68-70) and reads its value with `strtoint(value.ptr, value.size)`
    (src/strlib/strtoint.c:3-14); `none` if there is no such setting. -/
def number (a : Alloc) (data : List Byte) (answers : List (Option Nat)) (sec key : SP) : C (Option Int) := do
  let lines ← Settings.loadSplit a data answers
  match ← Settings.setting lines sec key with
  | none => pure none
  | some v => do pure (some (← Numbers.strtoint v.buf v.size))

end Ulz.Setnum

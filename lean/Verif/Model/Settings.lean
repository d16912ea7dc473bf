import Verif.Model.Inifile
import Verif.Model.Readers
/-! Programs that keep their settings in an INI file: reading the file in the two ways the library has, asking for a setting, and
    writing the lines again. -/
namespace Ulz.Settings
open Ulz.Stringptr (SP)

/-- src/iniparser/iniparser.c:36-38 and 68-70: the setting of a key in the first section of a name; `none` for NULL. -/
def setting (lines : List SP) (sec key : SP) : C (Option SP) := do
  let s ← Iniparser.get_section lines sec
  Iniparser.getvalue lines s key

/-- src/stringptrlist/stringptrlist_fromfile.c:4-17 into an empty list. The result is not looked at. -/
def loadList (mem : Nat → Alloc) (grow : Nat → Bool) (data : List Byte) (fd : Int) (uninit : List Byte) (len : Nat) : C (List SP) := do
  pure (← Fileparser.fromfile mem grow data fd uninit len []).1

/-- src/stringptr/stringptr_fromfile.c:12-37 and stringptr_linesplit (include/stringptrlist.h:49); an empty list if the file is not
    read. The list can grow. -/
def loadSplit (a : Alloc) (data : List Byte) (answers : List (Option Nat)) : C (List SP) := do
  match ← Wholefile.stringptr_fromfile (some data.length) true a data answers with
  | none => pure []
  | some p => do
    let (buf, ps) ← Stringptr.splitc p (ch '\n').toInt (fun _ => true)
    pure (Inifile.entries buf ps)

/-- src/stringptrlist/stringptrlist_tofile.c:6-20: the new content of the file, nothing failing. -/
def save (lines : List SP) : C (List Byte) := do pure (← Fileparser.tofile lines).1

/-- `k` times: read the file by splitting it, and write it again. -/
def rounds (f : Nat → Byte) (answers : Nat → List (Option Nat)) : (k : Nat) → (data : List Byte) → C (List Byte)
  | 0, data => pure data
  | k + 1, data => do rounds f answers k (← save (← loadSplit (some f) data (answers k)))

end Ulz.Settings

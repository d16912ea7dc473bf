import Verif.Model.Inifile
import Verif.Model.Programs
/-! Model of tests/iniparser_test_nextsection.c: a program that goes through the sections of one name. -/
namespace Ulz.Nextsec
open Ulz.Stringptr (SP splitc)
open Ulz.Iniparser (Sect get_next_section getvalue)
open Ulz.Programs (Scratch printf)

/-- `SPL("section")` (tests/iniparser_test_nextsection.c:12). -/
def nameSP : SP := ⟨bytes! "section" ++ [0], 7⟩

/-- `SPL("value")` (tests/iniparser_test_nextsection.c:14). -/
def keySP : SP := ⟨bytes! "value" ++ [0], 5⟩

/-- tests/iniparser_test_nextsection.c:12-17: the loop, which ends at the first answer with no lines. `k` numbers the calls of
    ulz_printf; the result is what is printed. -/
def loop (s : Scratch) (lines : List SP) : (fuel k : Nat) → (sec : Sect) → C (List Byte)
  | 0, _, _ => .error .hang
  | fuel + 1, k, sec => do
    let sec ← get_next_section lines nameSP sec
    if sec.linecount ≠ 0 then
      match ← getvalue lines sec keySP with
      | none => loop s lines fuel k sec
      | some x =>
        if x.size ≠ 0 then do
          let t ← printf s k (bytes! "value of section: %s\n") [.str (some x.buf)]
          let r ← loop s lines fuel (k + 1) sec
          pure (t ++ r)
        else loop s lines fuel k sec
    else pure []

/-- tests/iniparser_test_nextsection.c:6-20: `fc` is the result of stringptr_fromfile (`none` is NULL). The allocations of the list
    of lines succeed; `stringptr_splitc` reads `buf->size` (src/stringptrlist/stringptr_splitc.c:13). -/
def main (s : Scratch) (fc : Option SP) : C (List Byte) :=
  match fc with
  | none => .error .nullDeref
  | some fc => do
    let (buf, ps) ← splitc fc 10 fun _ => true
    let lines := Inifile.entries buf ps
    loop s lines (lines.length + 1) 0 ⟨0, 0⟩

end Ulz.Nextsec

import Verif.Model.Output
import Verif.Model.Stringptr
/-! A log that is written with log_put (src/logger/log_put.c) and read again with the library: the file as a whole
    (src/stringptr/stringptr_fromfile.c), then split into lines and fields (src/stringptrlist/stringptr_splitc.c). -/
namespace Ulz.Logread
open Ulz.Output Ulz.Stringptr

/-- One call of log_put (src/logger/log_put.c:8-44) for each message; what is then in the file, if every write writes all. `bufs` are
    the local arrays of the calls of log_putd. -/
def logAll (bufs : Nat → Nat → List Byte) : List (List Vario) → C (List Byte)
  | [] => pure []
  | m :: ms => do
    let a ← log_put (bufs 0) m
    let r ← logAll (fun i => bufs (i + 1)) ms
    pure (a ++ r)

/-- Arguments of log_put with a string of one character between any two (`VARISL("\t")`, include/vario.h:32). -/
def record (sep : Byte) : List Vario → List Vario
  | [] => []
  | [v] => [v]
  | v :: vs => v :: .stringptr (some ⟨[sep, 0], 1⟩) :: record sep vs

/-- src/stringptr/stringptr_fromfile.c gives the bytes of the file and a zero; src/stringptrlist/stringptr_splitc.c:4-21 splits them, with
    memory enough. -/
def split (text : List Byte) (sep : Byte) : C (List Byte × List Piece) := splitc ⟨text ++ [0], text.length⟩ sep.toInt (fun _ => true)

end Ulz.Logread

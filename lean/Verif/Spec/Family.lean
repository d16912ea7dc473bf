import Verif.Model.Family
import Verif.Spec.Proc
/-! Specification for several processes at the same time. -/
namespace Ulz.Family.Spec
open Ulz.Family

/-- A caller that has its standard descriptors open and no processes yet. -/
def Start (t : Table) : Prop := (t 0 ≠ none ∧ t 1 ≠ none ∧ t 2 ≠ none) ∧ ∀ f k i b, t f ≠ some (.pipe k i b)

/-- The states a caller can get into with process_open (successful or not) and process_close. -/
inductive Reach (t : Table) : Sys → Prop
  | start : Reach t ⟨t, []⟩
  | opens {s s' ans b} : Reach t s → Proc.Spec.Legal ans (hide s.table) → ans.init = true → open_ ans s = .ok (s', b) → Reach t s'
  | closes {s s' k} : Reach t s → Closes s k s' → Reach t s'

/-- Process `k` has been opened and not closed. -/
def Open (s : Sys) (k : Nat) : Prop := ∃ kid, s.kids[k]? = some kid ∧ kid.opened = true

/-- process_close for several processes, one after the other. -/
inductive CloseSeq : Sys → List Nat → Sys → Prop
  | nil {s} : CloseSeq s [] s
  | cons {s s' s'' k ks} : Closes s k s' → CloseSeq s' ks s'' → CloseSeq s (k :: ks) s''

end Ulz.Family.Spec

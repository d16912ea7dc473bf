import Verif.Model.Savers
/-! Specification for saving to a file step by step. -/
namespace Ulz.Savers.Spec
open Ulz.Savers

/-- The file has the content `old` and processes are about to save `cs` to it. -/
def start (old : List Byte) (cs : List (List Byte)) : Sys := ⟨old, cs.map (⟨·, none⟩)⟩

/-- Every process has transferred all of its content. -/
def AllDone (s : Sys) : Prop := ∀ w ∈ s.ws, w.off = some w.content.length

/-- Some process has opened the file. -/
def Opened (s : Sys) : Prop := ∃ w ∈ s.ws, w.off ≠ none

/-- Every single transfer is one that stringptr_tofile can ask for: 1 to 65536 bytes. -/
def Portions (es : List Ev) : Prop := ∀ i k, Ev.writes i k ∈ es → 1 ≤ k ∧ k ≤ 65536

end Ulz.Savers.Spec

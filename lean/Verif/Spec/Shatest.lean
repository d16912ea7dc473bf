import Verif.Base
namespace Ulz.Shatest.Spec

/-- The answers of `read` that deliver the pieces `ps` and then the end of the file. -/
def deliver (ps : List (List Byte)) : List (Option Nat) := ps.map (fun p => some p.length) ++ [some 0]

/-- `ps` is a way in which `read` with a buffer of 4096 bytes can deliver `data`. -/
def Delivery (ps : List (List Byte)) (data : List Byte) : Prop := ps.flatten = data ∧ ∀ p ∈ ps, p ≠ [] ∧ p.length ≤ 4096

end Ulz.Shatest.Spec

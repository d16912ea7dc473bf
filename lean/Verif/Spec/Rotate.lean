import Verif.Model.Rotate
import Verif.Spec.Follow
/-! Specification for reading a file that is changed. -/
namespace Ulz.Rotate.Spec
open Ulz.Rotate Ulz.Follow
open Ulz.Follow.Spec

/-- What the reader gets, by the contents and its place in the file; `serve` (Spec/Follow.lean) tells what a call gives from the bytes that are left. -/
def serveAll (n : Nat) (data : List Byte) (pos lost : Nat) : List Rotate.Ev → List Out
  | [] => []
  | .change c :: es => serveAll n c pos lost es
  | .read :: es =>
    (serve n (data.drop pos) lost).2.2 :: serveAll n data (pos + (serve n (data.drop pos) lost).1) (serve n (data.drop pos) lost).2.1 es

/-- Two histories that differ only in what the contents have before place `pos`. -/
inductive Same (pos : Nat) : List Rotate.Ev → List Rotate.Ev → Prop
  | nil : Same pos [] []
  | read {es es'} : Same pos es es' → Same pos (.read :: es) (.read :: es')
  | change {c c' es es'} : c.drop pos = c'.drop pos → Same pos es es' → Same pos (.change c :: es) (.change c' :: es')

end Ulz.Rotate.Spec

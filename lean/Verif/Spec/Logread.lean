import Verif.Spec.Output
/-! The texts of messages. -/
namespace Ulz.Logread.Spec
open Ulz.Output Ulz.Output.Spec

/-- The texts of messages, each being the texts of its arguments one after the other. -/
inductive Messages : List (List Vario) → List (List Byte) → Prop
  | nil : Messages [] []
  | cons {m ts ms ss} : Texts m ts → Messages ms ss → Messages (m :: ms) (ts.flatten :: ss)

end Ulz.Logread.Spec

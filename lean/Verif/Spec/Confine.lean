import Verif.Base
/-! The test of a program that wants to know whether one path lies below another, according to the comments of `getpathdiff`. -/
namespace Ulz.Confine.Spec

/-- `getpathdiff` has returned a positive number and a text that starts with a slash. -/
def Accepted (r : Int) (workbuf : List Byte) : Prop := r > 0 ∧ workbuf[0]? = some (ch '/')

/-- `k` times `/..`. -/
def ups (k : Nat) : List Byte := (List.replicate k (bytes! "/..")).flatten

end Ulz.Confine.Spec

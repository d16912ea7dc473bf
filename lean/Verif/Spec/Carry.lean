import Verif.Spec.Base64
import Verif.Spec.Inifile
import Verif.Model.Base64
/-! Data of any bytes in a text file. -/
namespace Ulz.Carry.Spec
open Ulz.Base64.Spec

/-- The characters of base64 text. -/
def letters : List Byte := bytes! "ABCDEFGHIJKLMNOPQRSTUVWXYZabcdefghijklmnopqrstuvwxyz0123456789+/="

/-- base64dec gives `d` and its length for the string at the pointer, in every buffer of the documented size (and touches no other
    memory: `base64dec` would be an error). -/
def Gives (ptr d : List Byte) : Prop :=
  ∀ dst : List Byte, 3 * ((d.length + 2) / 3) + 1 ≤ dst.length →
    ∃ out, Base64.base64dec dst ptr dst.length = .ok (out, d.length) ∧ out.take d.length = d

/-- Data that base64dec can count. -/
def Small (d : List Byte) : Prop := 4 * ((d.length + 2) / 3) < 2 ^ 31

/-- An INI file with the base64 text of every value. -/
def encoded (ini : Inifile.Spec.Ini) : Inifile.Spec.Ini := ini.map fun s => (s.1, s.2.map fun e => (e.1, encode e.2))

end Ulz.Carry.Spec

import Verif.Model.Charclass
/-! Property C143: the classes of printable characters. -/
namespace Ulz.Props
open Ulz.Charclass

/-- Every byte is among these. -/
theorem byte_forall (P : Byte → Prop) [DecidablePred P] (h : ∀ i : Fin 256, P (BitVec.ofFin i)) (c : Byte) : P c := h c.toFin

/-- C143: STRSWITCH_PRINTABLE contains the printable characters of ASCII except for three: the accent, the circumflex and the bar. -/
theorem printable_class (c : Byte) : c ∈ PRINTABLE ↔ 32 ≤ c.toNat ∧ c.toNat < 127 ∧ c ≠ ch '`' ∧ c ≠ ch '^' ∧ c ≠ ch '|' :=
  byte_forall (fun c => c ∈ PRINTABLE ↔ 32 ≤ c.toNat ∧ c.toNat < 127 ∧ c ≠ ch '`' ∧ c ≠ ch '^' ∧ c ≠ ch '|') (by decide +kernel) c

/-- C143: STRSWITCH_C_PRINTABLE contains of these the characters that need no backslash in a string or character constant of C and
    cannot be part of a trigraph. -/
theorem c_printable_class (c : Byte) : c ∈ C_PRINTABLE ↔ c ∈ PRINTABLE ∧ c ≠ ch '"' ∧ c ≠ ch '\'' ∧ c ≠ ch '\\' ∧ c ≠ ch '?' :=
  byte_forall (fun c => c ∈ C_PRINTABLE ↔ c ∈ PRINTABLE ∧ c ≠ ch '"' ∧ c ≠ ch '\'' ∧ c ≠ ch '\\' ∧ c ≠ ch '?') (by decide +kernel) c

/-- C143: STRSWITCH_SH_PRINTABLE contains of these the characters that are not special between double quotes in the shell (POSIX XCU
    2.2.3: the dollar sign, the accent, the double quote and the backslash). -/
theorem sh_printable_class (c : Byte) : c ∈ SH_PRINTABLE ↔ c ∈ C_PRINTABLE ∧ c ≠ ch '$' ∧ c ≠ ch '`' ∧ c ≠ ch '"' ∧ c ≠ ch '\\' :=
  byte_forall (fun c => c ∈ SH_PRINTABLE ↔ c ∈ C_PRINTABLE ∧ c ≠ ch '$' ∧ c ≠ ch '`' ∧ c ≠ ch '"' ∧ c ≠ ch '\\') (by decide +kernel) c

/-- C143: no class has a character twice, which a `switch` would not allow. -/
theorem class_nodup : PRINTABLE.Nodup ∧ C_PRINTABLE.Nodup ∧ SH_PRINTABLE.Nodup := by decide +kernel

example : ch '~' ∈ SH_PRINTABLE ∧ ch '|' ∉ PRINTABLE := by decide

end Ulz.Props

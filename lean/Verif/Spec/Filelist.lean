import Verif.Model.Filelist
/-! Specification for filelist_search. -/
namespace Ulz.Filelist.Spec

/-- The characters that have a meaning for glob and are escaped. -/
def Special (c : Byte) : Prop := c = ch '[' ∨ c = ch '?' ∨ c = ch '*'
instance (c : Byte) : Decidable (Special c) := inferInstanceAs (Decidable (_ ∨ _))

/-- A text with a backslash before each of these. -/
def escape (d : List Byte) : List Byte := d.flatMap fun c => if Special c then [ch '\\', c] else [c]

/-- The pattern `p` of glob (POSIX, XCU 2.13) stands for the text `t` and no other: it consists of ordinary characters and of
    characters quoted by a backslash. -/
inductive Literal : List Byte → List Byte → Prop
  | nil : Literal [] []
  | quoted {c p t} : Literal p t → Literal (ch '\\' :: c :: p) (c :: t)
  | plain {c p t} : ¬ Special c → c ≠ ch '\\' → Literal p t → Literal (c :: p) (c :: t)

/-- The pattern for the files `mask` in the directory `d`. -/
def pattern (d mask : List Byte) : List Byte := escape d ++ (if d.getLast? = some (ch '/') then [] else [ch '/']) ++ mask

/-- `n` is the last component of the path `p`, including a slash behind it. -/
def Base (p n : List Byte) : Prop :=
  ∃ pre core tail, p = pre ++ ch '/' :: (core ++ tail) ∧ n = core ++ tail ∧ ch '/' ∉ core ∧ (tail = [] ∧ core ≠ [] ∨ tail = [ch '/'])

/-- The name under which the path `p` appears. -/
def Name (flags : BitVec 32) (p n : List Byte) : Prop := if flags.getLsbD 2 then Base p n else n = p

/-- A name for the directory itself: `./` or, with its path, `.../`. -/
def IsDot (flags : BitVec 32) (n : List Byte) : Prop := if flags.getLsbD 2 then n = bytes! "./" else bytes! "/./" <:+ n
def IsDotDot (flags : BitVec 32) (n : List Byte) : Prop := if flags.getLsbD 2 then n = bytes! "../" else bytes! "/../" <:+ n

/-- With hidden files included, `.` and `..` are dropped unless asked for. -/
def Dropped (flags : BitVec 32) (n : List Byte) : Prop :=
  flags.getLsbD 3 = true ∧ ((flags.getLsbD 0 = false ∧ IsDot flags n) ∨ (flags.getLsbD 1 = false ∧ IsDotDot flags n))

/-- The names for the paths that glob found. -/
inductive Entries (flags : BitVec 32) : List (List Byte) → List (List Byte) → Prop
  | nil : Entries flags [] []
  | empty {ps ns} : Entries flags ps ns → Entries flags ([] :: ps) ns
  | keep {p n ps ns} : p ≠ [] → Name flags p n → ¬ Dropped flags n → Entries flags ps ns → Entries flags (p :: ps) (n :: ns)
  | drop {p n ps ns} : p ≠ [] → Name flags p n → Dropped flags n → Entries flags ps ns → Entries flags (p :: ps) ns

/-- `./` and `../` are put in front if hidden files are not included. -/
def dots (flags : BitVec 32) : List (List Byte) :=
  if flags.getLsbD 3 then [] else (if flags.getLsbD 0 then [bytes! "./"] else []) ++ (if flags.getLsbD 1 then [bytes! "../"] else [])

end Ulz.Filelist.Spec

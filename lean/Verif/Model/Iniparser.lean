import Verif.Model.Stringptr
/-! Model of src/iniparser. The list of lines (`stringptrlist`) is the list of its items; `stringptrlist_get` answers NULL
    outside it (C19, C53). -/
namespace Ulz.Iniparser
open Ulz.Stringptr (SP memEq)

/-- include/iniparser.h:16-19. -/
structure Sect where
  startline : Nat
  linecount : Nat
  deriving DecidableEq, Repr

/-- src/iniparser/iniparser.c:20-22: the test for the header line. -/
def isHeader (line name : SP) : C Bool := do
  if line.size ≥ szt (name.size + 2) then
    if (← rd line.buf 0) = ch '[' then
      if (← rd line.buf (1 + name.size)) = ch ']' then memEq line.buf 1 name.buf 0 name.size
      else pure false
    else pure false
  else pure false

/-- src/iniparser/iniparser.c:18-23: the whole condition. -/
def startsHere (st : Nat) (line name : SP) : C Bool := if st = 0 then isHeader line name else pure false

/-- src/iniparser/iniparser.c:25: the test for the end of the section. -/
def endsHere (st : Nat) (line : SP) : C Bool := do
  if st ≠ 0 ∧ line.size ≠ 0 then pure ((← rd line.buf 0) = ch '[') else pure false

/-- src/iniparser/iniparser.c:15-33: the loop; `st` is `result.startline`. -/
def secLoop (l : List SP) (name : SP) : (fuel i st : Nat) → C Sect
  | 0, _, _ => .error .hang
  | fuel + 1, i, st =>
    if i < l.length then
      match l[i]? with
      | none => secLoop l name fuel (i + 1) st
      | some line => do
        if ← startsHere st line name then secLoop l name fuel (i + 1) (i + 1)
        else if ← endsHere st line then pure ⟨st, i - st⟩
        else secLoop l name fuel (i + 1) st
    else if st ≠ 0 then pure ⟨st, l.length - st⟩
    else pure ⟨0, 0⟩

/-- src/iniparser/iniparser.c:11-34. -/
def get_section_at (l : List SP) (name : SP) (startline : Nat) : C Sect := secLoop l name (l.length - startline + 1) startline 0

/-- src/iniparser/iniparser.c:36-38. -/
def get_section (l : List SP) (name : SP) : C Sect := get_section_at l name 0

/-- src/iniparser/iniparser.c:40-42. -/
def get_next_section (l : List SP) (name : SP) (prev : Sect) : C Sect :=
  get_section_at l name (szt (prev.startline + prev.linecount))

/-- src/iniparser/iniparser.c:44-49. -/
def file_as_section (l : List SP) : Sect := ⟨0, l.length⟩

/-- src/iniparser/iniparser.c:57: the test for a line with the key. -/
def isKey (line key : SP) : C Bool := do
  if line.size > key.size then
    if (← rd line.buf key.size) = ch '=' then memEq line.buf 0 key.buf 0 key.size else pure false
  else pure false

/-- src/iniparser/iniparser.c:55-65: the loop; the returned index (-1 is `none`) and `*result` (NULL is `none`). -/
def valLoop (l : List SP) (key : SP) (maxline : Nat) : (fuel i : Nat) → C (Option Nat × Option SP)
  | 0, _ => .error .hang
  | fuel + 1, i =>
    if i < maxline then
      match l[i]? with
      | none => valLoop l key maxline fuel (i + 1)
      | some line => do
        if ← isKey line key then pure (some i, some ⟨line.buf.drop (key.size + 1), line.size - (key.size + 1)⟩)
        else valLoop l key maxline fuel (i + 1)
    else pure (none, none)

/-- src/iniparser/iniparser.c:51-66. -/
def getvalue_at (l : List SP) (s : Sect) (key : SP) (startline : Nat) : C (Option Nat × Option SP) :=
  let maxline := szt (s.startline + s.linecount)
  valLoop l key maxline (maxline - startline + 1) startline

/-- src/iniparser/iniparser.c:68-70. -/
def getvalue (l : List SP) (s : Sect) (key : SP) : C (Option SP) := do
  pure (← getvalue_at l s key s.startline).2

/-- src/iniparser/iniparser_count_sections.c:3-5. -/
def iswhitespace (b : List Byte) (i : Nat) : C Bool := do
  let c ← rd b i
  pure (c = ch '\t' ∨ c = ch ' ')

/-- src/iniparser/iniparser_count_sections.c:7-11. -/
def lastNonWs (b : List Byte) : (res : Nat) → C Nat
  | 0 => pure 0
  | res + 1 => do if ← iswhitespace b res then lastNonWs b res else pure (res + 1)

/-- src/iniparser/iniparser_count_sections.c:20-23: whether the line counts. -/
def counts (line : SP) : C Bool := do
  if line.size ≥ 3 then
    if (← rd line.buf 0) = ch '[' then
      let n ← lastNonWs line.buf line.size
      if n ≠ 0 then pure ((← rd line.buf (n - 1)) = ch ']') else pure false
    else pure false
  else pure false

/-- src/iniparser/iniparser_count_sections.c:17-26: the loop over the lines. -/
def countLoop : List SP → (result : Nat) → C Nat
  | [], result => pure result
  | line :: l, result => do if ← counts line then countLoop l (result + 1) else countLoop l result

/-- src/iniparser/iniparser_count_sections.c:13-28. -/
def count_sections (l : List SP) : C Nat := countLoop l 0

end Ulz.Iniparser

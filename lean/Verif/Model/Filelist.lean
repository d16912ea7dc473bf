import Verif.Model.Stringptr
/-! Model of src/filelist/filelist.c. `glob` is any function of the pattern and of the flag GLOB_PERIOD (GLOB_MARK is
    always set) to an error or to a list of zero-terminated strings. -/
namespace Ulz.Filelist
open Ulz.Stringptr (SP rchr)

/-- PATH_MAX -/
def PATH_MAX : Nat := 4096

/-- src/filelist/filelist.c:15-23: the loop; the input from its current position, the rest of `in_size`, the buffer and
    `out_size`. Result: the rest of `in_size`, the buffer and `out_size`. -/
def escLoop : (fuel : Nat) → (inp : List Byte) → (in_size : Nat) → (out : List Byte) → (out_size : Nat) → C (Nat × List Byte × Nat)
  | 0, _, _, _, _ => .error .hang
  | fuel + 1, inp, in_size, out, out_size =>
    if in_size ≠ 0 ∧ out_size + 2 < PATH_MAX then do
      let c ← rd inp 0
      if c = ch '[' ∨ c = ch '?' ∨ c = ch '*' then
        let out ← wr out out_size (ch '\\')
        let out ← wr out (out_size + 1) c
        escLoop fuel (inp.drop 1) (in_size - 1) out (out_size + 2)
      else
        let out ← wr out out_size c
        escLoop fuel (inp.drop 1) (in_size - 1) out (out_size + 1)
    else pure (in_size, out, out_size)

/-- src/filelist/filelist.c:12-27: the buffer and the result (`none` for -1). -/
def cpystr_escape (out : List Byte) (inp : SP) : C (List Byte × Option Nat) := do
  let (in_size, out, out_size) ← escLoop (inp.size + 1) inp.buf inp.size out 0
  if in_size ≠ 0 ∨ out_size ≥ PATH_MAX then pure (out, none) else pure (out, some out_size)

/-- `flags & bit` -/
def has (flags bit : BitVec 32) : Bool := flags &&& bit ≠ 0

/-- include/filelist.h:17-23 -/
def INCLUDE_DOT : BitVec 32 := 1
/-- include/filelist.h:17-23. -/
def INCLUDE_DOT_DOT : BitVec 32 := 2
/-- include/filelist.h:17-23. -/
def EXCLUDE_PATH : BitVec 32 := 4
/-- include/filelist.h:17-23. -/
def INCLUDE_HIDDEN : BitVec 32 := 8

/-- What the body of the loop does with a path. -/
inductive Fate where
  | skip
  | err
  | add (s : SP)
  deriving DecidableEq, Repr

/-- src/filelist/filelist.c:73-79: `xxxx/./` and `xxx/../`. -/
def dotPath (flags : BitVec 32) (s : SP) : C Bool := do
  if has flags INCLUDE_HIDDEN && decide (s.size ≥ 3) then
    if (← rd s.buf (s.size - 1)) = ch '/' then
      if (← rd s.buf (s.size - 2)) = ch '.' then
        let c3 ← rd s.buf (s.size - 3)
        if !(has flags INCLUDE_DOT) && decide (c3 = ch '/') then pure true
        else if !(has flags INCLUDE_DOT_DOT) && decide (s.size ≥ 4) && decide (c3 = ch '.') then
          pure (decide ((← rd s.buf (s.size - 4)) = ch '/'))
        else pure false
      else pure false
    else pure false
  else pure false

/-- src/filelist/filelist.c:99-104: `./` and `../`. -/
def dotName (flags : BitVec 32) (s : SP) : C Bool := do
  if has flags INCLUDE_HIDDEN then
    if (← rd s.buf 0) = ch '.' then
      if !(has flags INCLUDE_DOT) && decide (s.size = 2) then
        -- the other alternative needs size 3
        pure (decide ((← rd s.buf 1) = ch '/'))
      else if !(has flags INCLUDE_DOT_DOT) && decide (s.size = 3) then
        if (← rd s.buf 1) = ch '.' then pure (decide ((← rd s.buf 2) = ch '/')) else pure false
      else pure false
    else pure false
  else pure false

/-- src/filelist/filelist.c:68-105: the body of the loop for the path in `buf`, up to adding. -/
def body (flags : BitVec 32) (buf : List Byte) : C Fate := do
  let size ← Hex.strlen buf
  if size = 0 then pure .skip
  else if !(has flags EXCLUDE_PATH) then
    if ← dotPath flags ⟨buf, size⟩ then pure .skip else pure (.add ⟨buf, size⟩)
  else do
    let isdir := decide ((← rd buf (size - 1)) = ch '/')
    let (buf, size) ← if isdir then do pure (← wr buf (size - 1) 0, size - 1) else pure (buf, size)
    match ← rchr (some ⟨buf, size⟩) (ch '/').toInt with
    | none => pure .err
    | some o => do
      let o := o + 1
      let (buf, size) ← if isdir then do pure (← wr buf (size + 1 - 1) (ch '/'), size + 1) else pure (buf, size)
      let s : SP := ⟨buf.drop o, size - o⟩
      if ← dotName flags s then pure .skip else pure (.add s)

/-- src/filelist/filelist.c:67-110: the loop; `k` counts the calls of stringptrlist_add, call number `i` succeeding if `grow i`.
    The result, and the list for success. -/
def pathLoop (flags : BitVec 32) (grow : Nat → Bool) : (k : Nat) → (paths : List (List Byte)) → List SP → C (Int × List SP)
  | _, [], files => pure (0, files)
  | k, p :: paths, files => do
    match ← body flags p with
    | .skip => pathLoop flags grow k paths files
    | .err => pure (-1, [])
    | .add s => if grow k then pathLoop flags grow (k + 1) paths (files ++ [s]) else pure (-1, [])

/-- src/filelist/filelist.c:61-66: adding string literals, unchecked. -/
def literals (flags : BitVec 32) (grow : Nat → Bool) : Nat × List SP :=
  if !(has flags INCLUDE_HIDDEN) then
    let (k, files) := if has flags INCLUDE_DOT then (1, if grow 0 then [⟨bytes! "./" ++ [0], 2⟩] else []) else (0, [])
    if has flags INCLUDE_DOT_DOT then (k + 1, if grow k then files ++ [⟨bytes! "../" ++ [0], 3⟩] else files) else (k, files)
  else (0, [])

/-- src/filelist/filelist.c:42: the default directory. -/
def useDir (dir : Option SP) : SP :=
  match dir with
  | none => ⟨bytes! "./" ++ [0], 2⟩
  | some d => if d.size = 0 then ⟨bytes! "./" ++ [0], 2⟩ else d

/-- src/filelist/filelist.c:33-112. `l` tells whether the list is not NULL; `buf` is the uninitialised path buffer; `new` whether
    stringptrlist_new succeeds. -/
def filelist_search (l : Bool) (dir mask : Option SP) (flags : BitVec 32) (buf : List Byte)
    (glob : List Byte → Bool → Except Int (List (List Byte))) (new : Bool) (grow : Nat → Bool) : C (Int × List SP) := do
  let dir := useDir dir
  match mask with
  | none => pure (-1, [])
  | some mask =>
    if !l then pure (-1, [])
    else if mask.size = 0 then pure (-1, [])
    else
      let slash := decide ((← rd dir.buf (dir.size - 1)) = ch '/')
      if szt (mask.size + dir.size + (if slash then 0 else 1) + 1) > PATH_MAX then pure (-1, [])
      else
        let (buf, r) ← cpystr_escape buf dir
        match r with
        | none => pure (-1, [])
        | some i =>
          if i + mask.size + 2 ≥ PATH_MAX then pure (-1, [])
          else
            let (buf, o) ← if slash then pure (buf, i) else do pure (← wr buf i (ch '/'), i + 1)
            let buf ← wrN buf o (← rdN mask.buf 0 mask.size)
            let buf ← wr buf (o + mask.size) 0
            match glob (cstr buf) (has flags INCLUDE_HIDDEN) with
            | .error ret => pure (ret, [])
            | .ok paths =>
              if !new then pure (-1, [])
              else
                let (k, files) := literals flags grow
                pathLoop flags grow k paths files

end Ulz.Filelist

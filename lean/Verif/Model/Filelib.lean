import Verif.Model.Stringptr
import Verif.Model.Numbers
/-! Model of src/filelib: normalizepath, normalizepath_cstr, getpathdiff, getfilename, getFileExt, ulz_mkdtemp
    and mktempdir. -/
namespace Ulz.Filelib
open Ulz.Stringptr (SP memEq memcpy rchr)
open Ulz.Hex (strlen)

/-- limits.h on the platform the repository targets. -/
def PATH_MAX : Nat := 4096

/-- The variables of the loop in normalizepath and normalizepath_cstr: the index into the path, the output
    buffer and the number of bytes in use there. -/
structure St where
  i : Nat
  out : List Byte
  size : Nat
  deriving DecidableEq, Repr

/-- src/filelib/normalizepath.c:21 and src/filelib/normalizepath_cstr.c:33 `while(path[i+1] == '/') i++;` -/
def skip (path : List Byte) : (fuel i : Nat) → C Nat
  | 0, _ => .error .hang
  | fuel + 1, i => do if (← rd path (i + 1)) = ch '/' then skip path fuel (i + 1) else pure i

/-- src/filelib/normalizepath.c:58 and src/filelib/normalizepath_cstr.c:73 `out[out_size++] = path[i];` -/
def copy (path : List Byte) (s : St) : C (Option St) := do
  pure (some ⟨s.i, ← wr s.out s.size (← rd path s.i), s.size + 1⟩)

/-- src/filelib/normalizepath.c:20-23 and src/filelib/normalizepath_cstr.c:32-35: the case '/'. -/
def slash (path : List Byte) (s : St) : C (Option St) := do
  let i ← skip path (path.length + 1) s.i
  if s.size = 0 then copy path ⟨i, s.out, s.size⟩
  else if (← rd s.out (s.size - 1)) ≠ ch '/' then copy path ⟨i, s.out, s.size⟩
  else pure (some ⟨i, s.out, s.size⟩)

/-! ### normalizepath -/

/-- src/filelib/normalizepath.c:31-39: `out` without its last slash loses its last component; `none` is `fail`. -/
def popSp (s : St) : C (Option St) := do
  match ← rchr (some ⟨s.out, s.size⟩) (ch '/').toInt with
  | some k => pure (some ⟨s.i + 2, s.out, k + 1⟩)
  | none => pure none

/-- src/filelib/normalizepath.c:28-53: a component that starts with a dot; `s.size` does not count the slash. -/
def dotSp (path : List Byte) (s : St) : C (Option St) := do
  let c ← rd path (s.i + 1)
  if c = ch '.' then
    let d ← rd path (s.i + 2)
    if d = 0 ∨ d = ch '/' then popSp s else copy path ⟨s.i, s.out, s.size + 1⟩
  else if c = ch '/' then pure (some ⟨s.i + 1, s.out, s.size + 1⟩)
  else if c = 0 then pure (some ⟨s.i, s.out, s.size + 1⟩)
  else copy path ⟨s.i, s.out, s.size + 1⟩

/-- src/filelib/normalizepath.c:19-60: the loop body; `none` is `fail`. -/
def stepSp (path : List Byte) (s : St) : C (Option St) := do
  let c ← rd path s.i
  if c = ch '/' then slash path s
  else if c = ch '.' then
    if s.i = 0 ∨ s.size = 0 then pure none
    else if (← rd path (s.i - 1)) = ch '/' then
      if (← rd s.out (s.size - 1)) = ch '/' then dotSp path ⟨s.i, s.out, s.size - 1⟩ else copy path s
    else copy path s
  else copy path s

/-- src/filelib/normalizepath.c:18-61: the loop; running out of `fuel` is `hang`. -/
def loopSp (path : List Byte) (n : Nat) : (fuel : Nat) → St → C (Option (List Byte × Nat))
  | 0, _ => .error .hang
  | fuel + 1, s =>
    if s.i < n then do
      match ← stepSp path s with
      | none => pure none
      | some s => loopSp path n fuel ⟨s.i + 1, s.out, s.size⟩
    else pure (some (s.out, s.size))

/-- src/filelib/normalizepath.c:62-64 and src/filelib/normalizepath_cstr.c:78-80: strip the last slash, terminate. -/
def finish (out : List Byte) (size : Nat) : C (List Byte × Nat) := do
  if 1 < size then
    if (← rd out (size - 1)) = ch '/' then pure (← wr out (size - 1) 0, size - 1)
    else pure (← wr out size 0, size)
  else pure (← wr out size 0, size)

/-- src/filelib/normalizepath.c:10-68. `stack` is the content of the uninitialised local buffer. Result: the
    path afterwards, and the return value. -/
def normalizepath (stack : Nat → Byte) (path : SP) : C (SP × Nat) := do
  if path.size = 0 then pure (path, 0)
  else if (← rd path.buf 0) ≠ ch '/' then pure (path, 0)
  else
    match ← loopSp path.buf path.size (path.size + 1) ⟨0, (List.range PATH_MAX).map stack, 0⟩ with
    | none => pure (path, 0)
    | some (out, size) =>
      let (out, size) ← finish out size
      pure (⟨← memcpy path.buf 0 out (size + 1), size⟩, 1)

/-! ### normalizepath_cstr (without PSPLIKE_PATH) -/

/-- src/filelib/normalizepath_cstr.c:44 `while(--tmp > out && *tmp != '/');` started with `tmp = out + k + 1`:
    the offset where it stops. -/
def back (out : List Byte) : (k : Nat) → C Nat
  | 0 => pure 0
  | k + 1 => do if (← rd out (k + 1)) ≠ ch '/' then back out k else pure (k + 1)

/-- src/filelib/normalizepath_cstr.c:43-52: as `popSp`. With nothing in `out`, `tmp` is one before `out` and both
    comparisons are false. -/
def popC (s : St) : C (Option St) := do
  if s.size = 0 then pure none
  else
    let k ← back s.out (s.size - 1)
    if (← rd s.out k) = ch '/' then pure (some ⟨s.i + 2, s.out, k + 1⟩) else pure none

/-- src/filelib/normalizepath_cstr.c:40-68: as `dotSp`; line 59 is in `loopC`. -/
def dotC (path : List Byte) (s : St) : C (Option St) := do
  let c ← rd path (s.i + 1)
  if c = ch '.' then
    let d ← rd path (s.i + 2)
    if d = 0 ∨ d = ch '/' then popC s else copy path ⟨s.i, s.out, s.size + 1⟩
  else if c = ch '/' then pure (some ⟨s.i + 1, s.out, s.size + 1⟩)
  else if c = 0 then pure (some ⟨s.i, s.out, s.size + 1⟩)
  else copy path ⟨s.i, s.out, s.size + 1⟩

/-- src/filelib/normalizepath_cstr.c:31-75: the loop body; `none` is `fail`. -/
def stepC (path : List Byte) (s : St) : C (Option St) := do
  let c ← rd path s.i
  if c = ch '/' then slash path s
  else if c = ch '.' then
    if s.i = 0 ∨ s.size = 0 then pure none
    else if (← rd path (s.i - 1)) = ch '/' then
      if (← rd s.out (s.size - 1)) = ch '/' then dotC path ⟨s.i, s.out, s.size - 1⟩ else copy path s
    else copy path s
  else copy path s

/-- src/filelib/normalizepath_cstr.c:30-76: the loop. The test of line 59 (`if(!path[i]) goto done`) is made here
    after every iteration; where the source does not make it, `path[i]` is a byte that was just found not to be 0. Result: the
    output buffer and the number of bytes in use, `none` for `fail`. -/
def loopC (path : List Byte) : (fuel : Nat) → St → C (List Byte × Option Nat)
  | 0, _ => .error .hang
  | fuel + 1, s => do
    if (← rd path s.i) ≠ 0 then
      match ← stepC path s with
      | none => pure (s.out, none)
      | some s => if (← rd path s.i) = 0 then pure (s.out, some s.size) else loopC path fuel ⟨s.i + 1, s.out, s.size⟩
    else pure (s.out, some s.size)

/-- src/filelib/normalizepath_cstr.c:12-82. Result: the output buffer, and whether `out` (not NULL) is returned. -/
def normalizepath_cstr (path out : List Byte) : C (List Byte × Bool) := do
  if (← rd path 0) ≠ ch '/' then pure (out, false)
  else
    match ← loopC path (path.length + 1) ⟨0, out, 0⟩ with
    | (out, none) => pure (out, false)
    | (out, some size) => pure ((← finish out size).1, true)

/-! ### getpathdiff, getfilename, getFileExt -/

/-- src/filelib/getpathdiff.c:14-27, after the two calls of normalizepath. The sizes are below 2^63. Result:
    `path1->size`, `workbuf` and the returned value. -/
def diff (p1 p2 : SP) (workbuf : List Byte) : C (Nat × List Byte × Int) := do
  let size1 := if p1.size = 1 then 0 else p1.size
  let result : Int := p2.size - size1
  if result < 0 then pure (size1, workbuf, -1)
  else if result ≠ 0 then
    if ← memEq p1.buf 0 p2.buf 0 size1 then
      let workbuf ← wrN workbuf 0 (← rdN p2.buf size1 result.toNat)
      pure (p1.size, ← wr workbuf result.toNat 0, result)
    else pure (size1, workbuf, -1)
  else pure (p1.size, ← wr workbuf result.toNat 0, result)

/-- src/filelib/getpathdiff.c:10-28. Result: both paths, `workbuf` and the returned value. -/
def getpathdiff (stack1 stack2 : Nat → Byte) (path1 path2 : SP) (workbuf : List Byte) :
    C (SP × SP × List Byte × Int) := do
  let (p1, _) ← normalizepath stack1 path1
  let (p2, _) ← normalizepath stack2 path2
  let (n, w, r) ← diff p1 p2 workbuf
  pure (⟨p1.buf, n⟩, p2, w, r)

/-- src/filelib/getfilename.c:3-7: the offset of the returned pointer, `none` for NULL. -/
def getfilename (path : Option SP) : C (Option Nat) := do
  match ← rchr path (ch '/').toInt with
  | some k => pure (some (k + 1))
  | none => pure none

/-- src/filelib/getfileext.c:5: the loop, for the offset `p` of the pointer `p`. -/
def extLoop (name : List Byte) : (p : Nat) → C Nat
  | 0 => pure 0
  | p + 1 => if p > 0 then do (if (← rd name p) ≠ ch '.' then extLoop name p else pure (p + 1)) else pure (p + 1)

/-- src/filelib/getfileext.c:3-8: the offset of the returned pointer, `none` for NULL. -/
def getFileExt (name : List Byte) (fnlen : Nat) : C (Option Nat) := do
  let p ← extLoop name fnlen
  if p > 0 then pure (some p) else pure none

/-! ### mktempdir -/

/-- What `mkdir` can answer: success, EEXIST, or another error. -/
inductive Mk | ok | eexist | error
  deriving DecidableEq, Repr

/-- The environment: the results of `rand` (never negative), and what the n-th call of `mkdir` answers for a path.
    The log holds the paths `mkdir` created. -/
structure World where
  rand : Nat → Nat
  mkdir : Nat → List Byte → Mk
  nrand : Nat
  nmkdir : Nat
  made : List (List Byte)

/-- src/filelib/ulz_mkdtemp.c:16: replace the bytes at `i`, …, `i + k - 1`. -/
def randomize (w : World) (b : List Byte) (i : Nat) : (k : Nat) → C (World × List Byte)
  | 0 => pure (w, b)
  | k + 1 => do
    let c ← rd Numbers.conv_cypher (w.rand w.nrand % Numbers.conv_cypher.length)
    randomize { w with nrand := w.nrand + 1 } (← wr b i c) (i + 1) k

/-- ISO C: the text a pointer to a zero-terminated string denotes. -/
def cstr : List Byte → C (List Byte)
  | [] => .error .oobRead
  | c :: s => if c = 0 then pure [] else do pure (c :: (← cstr s))

/-- src/filelib/ulz_mkdtemp.c:15-20: the loop; `templ` has `l` characters. -/
def mkdtempLoop (l : Nat) : (fuel : Nat) → World → List Byte → C (World × List Byte × Bool)
  | 0, _, _ => .error .hang
  | fuel + 1, w, b => do
    let (w, b) ← randomize w b (l - 6) 6
    let path ← cstr b
    match w.mkdir w.nmkdir path with
    | .ok => pure ({ w with nmkdir := w.nmkdir + 1, made := path :: w.made }, b, true)
    | .eexist => mkdtempLoop l fuel { w with nmkdir := w.nmkdir + 1 } b
    | .error => pure ({ w with nmkdir := w.nmkdir + 1 }, b, false)

/-- src/filelib/ulz_mkdtemp.c:9-22: the world, the template and whether it is returned (not NULL). -/
def ulz_mkdtemp (fuel : Nat) (w : World) (templ : List Byte) : C (World × List Byte × Bool) := do
  let l ← strlen templ
  if l < 6 then pure (w, templ, false) else mkdtempLoop l fuel w templ

/-- src/filelib/mktempdir.c:3-12: the buffer and the length of the string in it. -/
def gen_fn (buf pre : List Byte) (pl : Nat) (tmpdir : List Byte) : C (List Byte × Nat) := do
  let buf ← wrN buf 0 tmpdir
  let buf ← wrN buf tmpdir.length (← rdN pre 0 pl)
  let buf ← wrN buf (tmpdir.length + pl) (bytes! "XXXXXX" ++ [0])
  pure (buf, tmpdir.length + pl + 6)

/-- src/filelib/mktempdir.c:16-25; `bufsize` is below 2^63. -/
def mktempdir (fuel : Nat) (w : World) (pre buffer : List Byte) (bufsize : Nat) : C (World × List Byte × Nat) := do
  let pl ← strlen pre
  if bufsize < 9 + pl + 7 then pure (w, buffer, 0)
  else
    let (b, ret) ← gen_fn buffer pre pl (bytes! "/dev/shm/")
    let (w, b, ok) ← ulz_mkdtemp fuel w b
    if ok then pure (w, b, ret)
    else
      let (b, ret) ← gen_fn b pre pl (bytes! "/tmp/")
      let (w, b, ok) ← ulz_mkdtemp fuel w b
      if ok then pure (w, b, ret) else pure (w, b, 0)

end Ulz.Filelib

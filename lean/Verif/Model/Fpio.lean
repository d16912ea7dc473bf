import Verif.Model.Fileparser
/-! Model of src/fileparser/fileparser_readline_userbuf.c and of stringptrlist_fromfile when `read` and `lseek` may do all that
    POSIX allows: `read` may deliver fewer bytes than are asked for and available, or fail, and `lseek` may fail (on a pipe it
    always does). -/
namespace Ulz.Fpio
open Ulz.Fileparser
open Ulz.Stringptr (SP strdup)

/-- What `read` does: fail with an errno, or deliver `k + 1` bytes, or fewer if fewer are asked for or available. -/
inductive RAns where
  | fail (errno : Nat)
  | upTo (k : Nat)
  deriving DecidableEq, Repr

/-- What the system answers in one call of the function: to `read` and, if it is called, to `lseek` (`none`: it succeeds). -/
structure Ans where
  r : RAns
  s : Option Nat
  deriving DecidableEq, Repr

/-- POSIX `read(fd, buf, n)` that delivers at most `k + 1` bytes. -/
def read (f : Fd) (buf : List Byte) (n k : Nat) : C (Fd × List Byte × Nat) := do
  let x := (f.data.drop f.off).take (min n (k + 1))
  pure ({ f with off := f.off + x.length }, ← wrN buf 0 x, x.length)

/-- POSIX `lseek(fd, pos, SEEK_SET)`: the file and whether it succeeded. -/
def seek (f : Fd) (pos : Nat) : Option Nat → Fd × Option Nat
  | none => ({ f with off := pos }, none)
  | some e => (f, some e)

/-- src/fileparser/fileparser_readline_userbuf.c:3-28 with `parser` not NULL. Result: the file, the parser, the buffer and the
    returned value. -/
def readline_userbuf (a : Ans) (f : Fd) (p : FP) (buf : List Byte) (bufsize : Nat) : C (Fd × FP × List Byte × Int) := do
  if p.file = 0 then pure (f, p, buf, -1)
  else
    match a.r with
    | .fail e => pure (f, p, buf, e)
    | .upTo k =>
      let (f, buf, n) ← read f buf bufsize k
      if n = 0 then pure (f, p, buf, -2)
      else
        match ← findLF buf n (n + 1) 0 with
        | some i =>
          let buf ← wr buf i 0
          let p := { p with fpos := p.fpos + (i + 1), len := i }
          match seek f p.fpos a.s with
          | (f, some e) => pure (f, p, buf, e)
          | (f, none) => pure (f, p, buf, 0)
        | none =>
          if n < bufsize then pure (f, { p with fpos := p.fpos + (n + 1), len := n }, ← wr buf n 0, 0)
          else
            match seek f p.fpos a.s with
            | (f, some e) => pure (f, { p with len := n }, buf, e)
            | (f, none) => pure (f, { p with len := n }, buf, -3)

/-- src/fileparser/fileparser_readline.c:3-5. -/
def readline (a : Ans) (f : Fd) (p : FP) : C (Fd × FP × Int) := do
  let (f, p, buf, r) ← readline_userbuf a f p p.buf BUFSIZE
  pure (f, { p with buf := buf }, r)

/-- src/stringptrlist/stringptrlist_fromfile.c:9-11: the loop, all allocations succeeding; `ans k` is what the system answers in
    the k-th call. -/
def fromLoop (ans : Nat → Ans) (mem : Nat → Nat → Byte) : (fuel k : Nat) → Fd → FP → List SP → C (List SP × Nat)
  | 0, _, _, _, _ => .error .hang
  | fuel + 1, k, f, p, l => do
    let (f, p, r) ← readline (ans k) f p
    if r = 0 ∧ (getline p).size ≠ 0 then
      match ← strdup (some (mem k)) (some (getline p)) with
      | none => pure (l, 0)
      | some s => fromLoop ans mem fuel (k + 1) f p (l ++ [⟨s, (getline p).size⟩])
    else pure (l, 1)

/-- src/stringptrlist/stringptrlist_fromfile.c:4-17 for a file that can be opened. -/
def fromfile (ans : Nat → Ans) (mem : Nat → Nat → Byte) (data : List Byte) (fd : Int) (uninit : List Byte) (len : Nat)
    (l : List SP) : C (List SP × Nat) :=
  let (f, p) := openFile data fd uninit len
  fromLoop ans mem (data.length + 2) 0 f p l

end Ulz.Fpio

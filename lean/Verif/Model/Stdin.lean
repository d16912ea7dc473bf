import Verif.Model.Stringptr
/-! Reading standard input line by line with read_stdin_line. -/
namespace Ulz.Stdin
open Ulz.Stringptr (SP)

/-- The loop of `fgets` (by contract): at most `k` bytes of the input, up to the first newline; and the rest of the input. -/
def takeLine : (k : Nat) → (inp : List Byte) → List Byte × List Byte
  | 0, inp => ([], inp)
  | _ + 1, [] => ([], [])
  | k + 1, c :: inp =>
    if c = ch '\n' then ([c], inp)
    else
      let (p, r) := takeLine k inp
      (c :: p, r)

/-- `fgets(buf, n, stdin)` by contract (no read errors): the buffer, whether the result is not NULL, and the rest of the input. For
    `n` below 1 it returns NULL, for 1 an empty string (as glibc and musl do; ISO C leaves this open). -/
def fgets (buf : List Byte) (n : Int) (inp : List Byte) : C (List Byte × Bool × List Byte) :=
  if n ≤ 0 then pure (buf, false, inp)
  else if n = 1 then do pure (← wr buf 0 0, true, inp)
  else
    match takeLine (n.toNat - 1) inp with
    | ([], _) => pure (buf, false, inp)
    | (p, r) => do pure (← wrN buf 0 (p ++ [0]), true, r)

/-- src/stringptr/read_stdin_line.c:6-17; `bufsize` is converted to the `int` that `fgets` takes. Result: the string, the buffer and
    the rest of the input. -/
def readLine (bufsize : Nat) (chomp : Bool) (buf inp : List Byte) : C (SP × List Byte × List Byte) := do
  let (buf, ok, inp) ← fgets buf (BitVec.ofNat 32 bufsize).toInt inp
  if ok then do
    let line ← Stringptr.read_stdin_line (some buf) chomp
    pure (line, line.buf, inp)
  else do
    let line ← Stringptr.read_stdin_line none chomp
    pure (line, buf, inp)

/-- The loop a user writes: `while((line = read_stdin_line(buf, bufsize, chomp)).ptr) use(line);` and the texts used. A NULL pointer is
    an SP without memory. -/
def readAll (bufsize : Nat) (chomp : Bool) : (fuel : Nat) → (buf inp : List Byte) → C (List (List Byte))
  | 0, _, _ => .error .hang
  | fuel + 1, buf, inp => do
    let (line, buf, inp) ← readLine bufsize chomp buf inp
    if line.buf = [] then pure []
    else do
      let ls ← readAll bufsize chomp fuel buf inp
      pure (line.buf.take line.size :: ls)

end Ulz.Stdin

import Verif.Model.Dialog
/-! Questions and answers: a caller that writes a question to fds[0] of a process started with process_open (src/proclib/process.c,
    include/proclib.h:26-27), reads the whole answer from fds[1], and goes on with the next question, as the test program of
    src/proclib/process.c:63-77 does with one question. The process writes its answers with stdio: they are held back in its buffer.
    Simplified: a question fits into its pipe; the process reads a question as a whole. -/
namespace Ulz.Coproc

/-- How many questions the caller has written and how many the process has answered; the bytes in the buffer of the process, how many of
    them it is about to write, the bytes in the pipe to fds[1], and those the caller has read. -/
structure Sys where
  asked : Nat
  served : Nat
  held : List Byte
  due : Nat
  out : List Byte
  got : List Byte
  deriving DecidableEq, Repr

/-- What kind of process and caller: the size of the buffer of the process, whether it flushes it after every answer (a line-buffered
    stream), how many bytes the pipe holds (src/proclib/process.c:18), the number of questions, and whether the caller closes
    fds[0] after the last one. -/
structure Kind where
  size : Nat
  flush : Bool
  pipe : Nat
  n : Nat
  closes : Bool

/-- The answers to the first `k` questions, one after the other. -/
def answers (ans : Nat → List Byte) (k : Nat) : List Byte := (List.range k).flatMap ans

/-- src/proclib/process.c:70-72 (the caller) and a process with a buffered output, one step. A question is written when the answers to all
    earlier ones have been read. An answer goes to the buffer; when that is full, it is written, and what does not fill it stays. At the
    end of its input the process writes all it has. Writing needs room in the pipe. -/
inductive Step (K : Kind) (ans : Nat → List Byte) : Sys → Sys → Prop
  | ask {a s h d o g} : a < K.n → g.length = (answers ans a).length → Step K ans ⟨a, s, h, d, o, g⟩ ⟨a + 1, s, h, d, o, g⟩
  | serve {a s h o g} : s < a → Step K ans ⟨a, s, h, 0, o, g⟩
      ⟨a, s + 1, h ++ ans s, if K.flush then (h ++ ans s).length else (h ++ ans s).length / K.size * K.size, o, g⟩
  | eof {h o g} : K.closes = true → h ≠ [] → Step K ans ⟨K.n, K.n, h, 0, o, g⟩ ⟨K.n, K.n, h, h.length, o, g⟩
  | give {a s x h d o g} : o.length < K.pipe → Step K ans ⟨a, s, x :: h, d + 1, o, g⟩ ⟨a, s, h, d, o ++ [x], g⟩
  | read {a s h d x o g} : Step K ans ⟨a, s, h, d, x :: o, g⟩ ⟨a, s, h, d, o, g ++ [x]⟩

/-- src/proclib/process.c:7-47: after process_open nothing has happened. -/
def start : Sys := ⟨0, 0, [], 0, [], []⟩

/-- The caller has asked all its questions and read all the answers. -/
def Done (K : Kind) (ans : Nat → List Byte) (s : Sys) : Prop := s.asked = K.n ∧ s.got.length = (answers ans K.n).length

end Ulz.Coproc

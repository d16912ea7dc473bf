import Verif.Model.Proc
/-! Model of the exit status in src/proclib/process.c: process_close. -/
namespace Ulz.Wait

/-- How a process ends: by exit or return from main with an `int`, or by a signal, with a core file or not. -/
inductive Fate where
  | exited (code : BitVec 32)
  | killed (signal : Nat) (core : Bool)

/-- The status that `waitpid` stores (Linux: the low 8 bits of the code in bits 8 to 15, or the signal in bits 0 to 6 and the core file
    in bit 7). -/
def status : Fate → BitVec 32
  | .exited code => (code &&& 0xff#32) <<< 8
  | .killed signal core => BitVec.ofNat 32 (signal % 128) ||| (if core then 0x80#32 else 0#32)

/-- The macro WEXITSTATUS (musl and glibc): `((s) & 0xff00) >> 8`. -/
def WEXITSTATUS (s : BitVec 32) : BitVec 32 := (s &&& 0xff00#32) >>> 8

/-- What `waitpid` answers: the fate of the child, or an error (EINTR if a signal is caught, ECHILD if SIGCHLD is ignored), in which case
    nothing is stored. -/
abbrev Answer := Option Fate

/-- src/proclib/process.c:50-56: the value returned; `retval` is the uninitialised variable. -/
def process_close (retval : BitVec 32) (a : Answer) : BitVec 32 :=
  let retval := match a with
    | some f => status f
    | none => retval
  WEXITSTATUS retval

end Ulz.Wait

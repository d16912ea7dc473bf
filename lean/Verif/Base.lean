/-
Base vocabulary shared by every model file.

C objects are modelled as follows (see DESIGN.md, "Modelling conventions"):
* a byte (`char`, `unsigned char`, `uint8_t`) is a `BitVec 8`;
* a buffer is a `List Byte` whose length is the number of bytes the caller made available;
  reading or writing outside it is undefined behaviour and is a distinct outcome (`UB`);
* a zero-terminated string with content `s` (no zero byte inside) is the buffer `s ++ [0]`.
-/
namespace Ulz

/-- One C byte. -/
abbrev Byte := BitVec 8

/-- The reasons for which an execution of the C code has undefined behaviour, plus
    non-termination (`hang`): outcomes that no caller may rely on. -/
inductive UB where
  | oobRead      -- read outside an object
  | oobWrite     -- write outside an object
  | nullDeref    -- dereference of (an offset of) a null pointer
  | overflow     -- signed integer overflow
  | divZero      -- division by zero
  | badFree      -- `free` of something `malloc` did not return
  | hang         -- the loop never terminates
  deriving DecidableEq, Repr

/-- Result of running C code: a value, or undefined behaviour. -/
abbrev C (α : Type) := Except UB α

instance {α : Type} [DecidableEq α] : DecidableEq (C α)
  | .ok a, .ok b => if h : a = b then isTrue (by rw [h]) else isFalse (by intro e; cases e; exact h rfl)
  | .error a, .error b => if h : a = b then isTrue (by rw [h]) else isFalse (by intro e; cases e; exact h rfl)
  | .ok _, .error _ => isFalse (by intro e; cases e)
  | .error _, .ok _ => isFalse (by intro e; cases e)

/-- ASCII code of a character literal as a byte. -/
def ch (c : Char) : Byte := BitVec.ofNat 8 c.toNat

/-- `bytes! "..."` is the list of ASCII codes of the literal, spelled out at elaboration time. -/
macro "bytes! " s:str : term => do
  let es := s.getString.toList.map fun c => Lean.Syntax.mkNumLit (toString c.toNat)
  let ts : Array (Lean.TSyntax `term) := (es.map fun e => ⟨e⟩).toArray
  `(([$ts,*] : List Byte))

/-- Read byte `i` of a buffer; outside the buffer this is undefined behaviour. -/
def rd (b : List Byte) (i : Nat) : C Byte :=
  match b[i]? with
  | some x => .ok x
  | none => .error .oobRead

/-- Write byte `i` of a buffer; outside the buffer this is undefined behaviour. -/
def wr (b : List Byte) (i : Nat) (v : Byte) : C (List Byte) :=
  if i < b.length then .ok (b.set i v) else .error .oobWrite

/-- The buffer `b` with the bytes `xs` stored from offset `i` on, everything else unchanged.
    (Used in statements; only meaningful when `i + xs.length ≤ b.length`.) -/
def put (b : List Byte) (i : Nat) (xs : List Byte) : List Byte :=
  b.take i ++ xs ++ b.drop (i + xs.length)

/-- `strlen`-style view of a buffer: the bytes before the first zero byte. -/
def cstr (b : List Byte) : List Byte := b.takeWhile (· ≠ 0)

end Ulz

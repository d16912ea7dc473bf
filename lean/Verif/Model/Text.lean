import Verif.Model.Hex
import Verif.Model.Mem
import Verif.Model.Numbers
/-! Model of the remaining text functions of src/strlib: IPv4 text, searching, character classes,
strends, containsChar, strdup_n. Strings are what the pointer points to (`s ++ 0 :: junk`). -/
namespace Ulz.Text

/-! ### Character classes -/

/-- include/strswitch.h:4-6. -/
def LETTERS_UC : List Byte := bytes! "ABCDEFGHIJKLMNOPQRSTUVWXYZ"
/-- include/strswitch.h:8-10. -/
def LETTERS_LC : List Byte := bytes! "abcdefghijklmnopqrstuvwxyz"
/-- include/strswitch.h:14. -/
def NUMBERS : List Byte := bytes! "0123456789"

/-- src/strlib/isAlpha.c:3-10 (STRSWITCH_ALPHA, include/strswitch.h:16). -/
def isAlpha (c : Byte) : Bool := LETTERS_UC.contains c || LETTERS_LC.contains c || NUMBERS.contains c
/-- src/strlib/isLetter.c:3-10 (STRSWITCH_LETTERS, include/strswitch.h:12). -/
def isLetter (c : Byte) : Bool := LETTERS_UC.contains c || LETTERS_LC.contains c
/-- src/strlib/isLower.c:3-10. -/
def isLower (c : Byte) : Bool := LETTERS_LC.contains c
/-- src/strlib/isUpper.c:3-10. -/
def isUpper (c : Byte) : Bool := LETTERS_UC.contains c
/-- src/strlib/isNumber.c:3-10. -/
def isNumber (c : Byte) : Bool := NUMBERS.contains c
/-- src/strlib/makeupper.c:3-12: `ludiff` is 'a' - 'A' = 32; the new value of `*i`. -/
def makeupper (c : Byte) : Byte := if LETTERS_LC.contains c then c - (ch 'a' - ch 'A') else c
/-- src/strlib/makelower.c:3-12. -/
def makelower (c : Byte) : Byte := if LETTERS_UC.contains c then c + (ch 'a' - ch 'A') else c

/-! ### containsChar, strends, strdup_n -/

/-- src/strlib/containsChar.c:6-10. -/
def containsLoop (what : Byte) : List Byte → C Bool
  | [] => .error .oobRead
  | c :: s => if c = 0 then pure false else if c = what then pure true else containsLoop what s

/-- src/strlib/containsChar.c:3-11; `none` is NULL. -/
def containsChar (str : Option (List Byte)) (what : Byte) : C Bool :=
  match str with
  | none => pure false
  | some s => containsLoop what s

/-- ISO C `strcmp(a, b) == 0`. -/
def strcmpEq : List Byte → List Byte → C Bool
  | a :: s, b :: t => if a ≠ b then pure false else if a = 0 then pure true else strcmpEq s t
  | _, _ => .error .oobRead

/-- src/strlib/strends.c:2-5. -/
def strends (what with_ : List Byte) : C Bool := do
  let la ← Hex.strlen what
  let li ← Hex.strlen with_
  if la ≥ li then strcmpEq (what.drop (la - li)) with_ else pure false

/-- src/strlib/strdup_n.c:5-11. `malloc` succeeds iff `ok`. Result: the new object (`none` is NULL).
    `memcpy` reads `len + 1` bytes of `str`; that wraps, so that for the largest `len` nothing is copied to an object of size 0. -/
def strdup_n (ok : Bool) (str : Option (List Byte)) (len : Nat) : C (Option (List Byte)) :=
  match str with
  | none => pure none
  | some s =>
    if len = 0 then pure none
    else if ok = false then pure none
    else if szt (len + 1) ≤ s.length then pure (some (s.take (szt (len + 1)))) else .error .oobRead

/-! ### Searching -/

/-- The loop nest of src/strlib/strstr_uc.c:10-23 and src/strlib/strstar.c:7-18, one step per haystack
    character. `hay` is what `haystack` points to, `pos` its offset, `i` the inner loop counter, `save`
    the saved pointer's offset; `test c n` is the comparison of a haystack character with a needle
    character. `*haystack` is tested by the outer loop when `i` is 0 and by the inner loop otherwise,
    both return NULL. -/
def scan (test : Byte → Byte → Bool) (needle : List Byte) (needlesize : Nat) :
    (hay : List Byte) → (pos i save : Nat) → C (Option Nat)
  | hay, pos, i, save =>
    if i = needlesize then pure (some save)
    else match hay with
      | [] => .error .oobRead
      | c :: hay' =>
        if c = 0 then pure none
        else do
          let save := if i = 0 then pos else save
          let n ← rd needle i
          if test c n then scan test needle needlesize hay' (pos + 1) (i + 1) save
          else scan test needle needlesize hay' (pos + 1) 0 save

/-- src/strlib/strstr_uc.c:14-16: for a lower-case letter the character minus 32 is compared. -/
def testUc (c n : Byte) : Bool := (if isLower c then c - (ch 'a' - ch 'A') else c) == n

/-- src/strlib/strstar.c:11. -/
def testStar (c n : Byte) : Bool := !(n ≠ ch '*' && c ≠ n)

/-- src/strlib/strstr_uc.c:5-24, pointers not NULL; result: offset of the returned pointer. -/
def strstr_uc (hay needle : List Byte) (needlesize : Nat) : C (Option Nat) :=
  if needlesize = 0 then pure none else scan testUc needle needlesize hay 0 0 0

/-- src/strlib/strstar.c:3-19, pointers not NULL. -/
def strstar (hay needle : List Byte) (needlesize : Nat) : C (Option Nat) :=
  if needlesize = 0 then pure none else scan testStar needle needlesize hay 0 0 0

/-- src/strlib/findword.c:5-12. -/
def isLeadingWhitespace (c : Byte) : Bool := (([32, 9, 10] : List Byte) ++ bytes! ":,.;-").contains c
/-- src/strlib/findword.c:14-21. -/
def isTrailingWhitespace (c : Byte) : Bool := (([32, 9, 10] : List Byte) ++ bytes! ":,.;-").contains c || c == 13

/-- src/strlib/findword.c:25-30; `base` is the offset of `buf`, `res` that of `res`. The loop is
    bounded by `fuel` (running out is reported as `hang`). -/
def findwordLoop (str word : List Byte) (len : Nat) : (fuel base res : Nat) → C (Option Nat)
  | 0, _, _ => .error .hang
  | fuel + 1, base, res => do
    if (← rd str res) = 0 then pure none
    else match ← strstr_uc (str.drop base) word len with
      | none => pure none
      | some o => do
        let res := base + o
        let left ← if res = base then pure true
          else (do pure (isLeadingWhitespace (← rd str (res - 1))))
        let right ← if left then (do
            let c ← rd str (res + len)
            pure (c == 0 || isTrailingWhitespace c)) else pure false
        if left && right then pure (some res)
        else findwordLoop str word len fuel (res + 1) res

/-- src/strlib/findword.c:23-32. Each round moves `buf` forward, so one round per byte is enough fuel
    (that `hang` does not happen is part of the theorem). -/
def findword (str word : List Byte) (len : Nat) : C (Option Nat) :=
  findwordLoop str word len (str.length + 1) 0 0

/-! ### IPv4 -/

/-- src/strlib/stringfromipv4.c:8-18, one byte of the address. -/
def ipByte (out : List Byte) (o : Nat) (p : Byte) : C (List Byte × Nat) := do
  let n := p.toNat
  let (out, o, n) ← if p.toNat ≥ 100 then (do
      let out ← wr out o (if p.toNat ≥ 200 then ch '2' else ch '1')
      pure (out, o + 1, n % 100)) else pure (out, o, n)
  let (out, o, n) ← if p.toNat ≥ 10 then (do
      let out ← wr out o (BitVec.ofNat 8 (n / 10) + ch '0')
      pure (out, o + 1, n % 10)) else pure (out, o, n)
  let out ← wr out o (BitVec.ofNat 8 n + ch '0')
  let out ← wr out (o + 1) (ch '.')
  pure (out, o + 2)

/-- src/strlib/stringfromipv4.c:7-19, loop over `n` bytes from index `i`. -/
def ipLoop (ip : List Byte) : (n i : Nat) → List Byte → Nat → C (List Byte × Nat)
  | 0, _, out, o => pure (out, o)
  | n + 1, i, out, o => do
    let (out, o) ← ipByte out o (← rd ip i)
    ipLoop ip n (i + 1) out o

/-- src/strlib/stringfromipv4.c:3-21. -/
def stringfromipv4 (ip out : List Byte) : C (List Byte) := do
  let (out, o) ← ipLoop ip 4 0 out 0
  wr out (o - 1) 0

/-- src/strlib/ipv4fromstring.c:6-14. `rest` is what `ipstring` points to, `start`/`len` the saved start
    (as what it points to) and its distance to `ipstring`. The conversion of the int to unsigned char is
    modulo 256. -/
def ip4Loop (out : List Byte) (outbyte : Nat) (start : List Byte) (len : Nat) :
    List Byte → C (List Byte × Nat)
  | [] => .error .oobRead
  | c :: rest =>
    if c = ch '.' ∨ c = 0 then do
      let v ← Numbers.strtoint start len
      let out ← wr out outbyte (BitVec.ofInt 8 v)
      if c = 0 ∧ outbyte + 1 < 4 then pure (out, 0)
      else if outbyte + 1 < 4 then ip4Loop out (outbyte + 1) rest 0 rest
      else pure (out, 1)
    else ip4Loop out outbyte start (len + 1) rest

/-- src/strlib/ipv4fromstring.c:3-16. Result: output bytes and return value. -/
def ipv4fromstring (str out : List Byte) : C (List Byte × Nat) := ip4Loop out 0 str 0 str

/-- src/strlib/isnumericipv4.c:6-23. -/
def numericLoop : List Byte → (n d : Nat) → (wasdot : Bool) → C Nat
  | [], _, _, _ => .error .oobRead
  | c :: s, n, d, wasdot =>
    if c = 0 then pure (if d = 3 ∧ n ≥ 4 ∧ n ≤ 12 then 1 else 0)
    else if c = ch '.' then
      if n = 0 ∨ wasdot = true then pure 0 else numericLoop s n (d + 1) true
    else if NUMBERS.contains c then numericLoop s (n + 1) d false
    else pure 0

/-- src/strlib/isnumericipv4.c:3-27. -/
def isnumericipv4 (str : List Byte) : C Nat := numericLoop str 0 0 false

end Ulz.Text

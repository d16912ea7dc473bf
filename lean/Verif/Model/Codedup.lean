import Verif.Model.Hex
/-! Model of examples/codedup.c, which looks for repeated blocks of lines. Allocations succeed; the lists are `tglist`s, here
    plain lists (C36), the map is an `hbmap` (C40), here a list of entries. The numbers of lines, the options and their sums fit
    in an `int` (so the low four bytes of a `size_t` used as key of the map are its value). The status line that is
    written to standard error on SIGALRM is not modelled. -/
namespace Ulz.Codedup

/-! ### Reading -/

/-- examples/codedup.c:10-17. `uint_fast32_t` has 64 bits; `s` is the memory from the pointer on. -/
def hashLoop : (s : List Byte) → (h : BitVec 64) → C (BitVec 32)
  | [], _ => .error .oobRead
  | c :: s, h =>
    if c = 0 then pure ((h &&& 0xfffffff).truncate 32)
    else
      let h := 16 * h + c.signExtend 64
      hashLoop s (h ^^^ (h >>> 24 &&& 0xf0))

/-- examples/codedup.c:10-17. -/
def string_hash (s : List Byte) : C (BitVec 32) := hashLoop s 0

/-- ISO C `fgets(buf, n + 1, f)`: the bytes taken from the file, up to and including a newline, at most `n`. -/
def lineOf : (n : Nat) → (f : List Byte) → List Byte
  | 0, _ => []
  | _ + 1, [] => []
  | n + 1, c :: f => if c = ch '\n' then [c] else c :: lineOf n f

/-- ISO C `strrchr(p, '\n')` in the string at the start of `p`: offset, `none` for NULL. -/
def rchr : (p : List Byte) → C (Option Nat)
  | [] => .error .oobRead
  | c :: p =>
    if c = 0 then pure none
    else do
      match ← rchr p with
      | some i => pure (some (i + 1))
      | none => pure (if c = ch '\n' then some 0 else none)

/-- ISO C `isspace` in the C locale, on an `int` that must be an unsigned char or EOF (-1). -/
def isspace (c : Int) : C Bool :=
  if c < -1 ∨ 255 < c then .error .oobRead else pure (decide (c = 32 ∨ (9 ≤ c ∧ c ≤ 13)))

/-- examples/codedup.c:97: `while(isspace(*p)) p++;`, `char` is signed. -/
def skipSpace : (p : List Byte) → C (List Byte)
  | [] => .error .oobRead
  | c :: p => do if ← isspace c.toInt then skipSpace p else pure (c :: p)

/-- examples/codedup.c:95-100: the line that was read becomes the text that is stored, with its hash. `junk` is what the
    array holds behind the line. -/
def prepare (w : Bool) (line junk : List Byte) : C (BitVec 32 × List Byte) := do
  let buf := line ++ 0 :: junk
  let q ← rchr buf
  let buf ← match q with
    | some q => wr buf q 0
    | none => pure buf
  let p ← if w then skipSpace buf else pure buf
  let hash ← string_hash p
  let n ← Hex.strlen p
  pure (hash, p.take n)

/-- examples/codedup.c:91-104: the loop over the lines of the file; `i` is the number of lines read before, `stop` is `end`
    (`none` for the default of -1). Result: the hashes and the strings. The assertions compare the number of stored lines with
    `i - start` and the stored line with the one just read. -/
def readLoop (w : Bool) (start : Nat) (stop : Option Nat) (junk : List Byte) :
    (fuel i : Nat) → (f : List Byte) → C (List (BitVec 32 × List Byte))
  | 0, _, _ => .error .hang
  | fuel + 1, i, f =>
    if f = [] then pure []
    else
      let line := lineOf 1023 f
      let f := f.drop line.length
      let i := i + 1
      if i - 1 < start then readLoop w start stop junk fuel i f
      else if stop.any (fun e => i ≥ e) then pure []
      else do
        let x ← prepare w line (junk.drop (line.length + 1))
        let r ← readLoop w start stop junk fuel i f
        pure (x :: r)

/-! ### Searching -/

/-- `HL(X)`, `SL(X)`: examples/codedup.c:121-122. -/
def at' (ls : List (BitVec 32 × List Byte)) (i : Nat) : C (BitVec 32 × List Byte) :=
  match ls[i]? with
  | some x => pure x
  | none => .error .oobRead

/-- examples/codedup.c:19-21 on lines `i` and `j`; `strcmp` of the stored strings. -/
def line_equal (ls : List (BitVec 32 × List Byte)) (i j : Nat) : C Bool := do
  let a ← at' ls i
  let b ← at' ls j
  pure (a.1 == b.1 && a.2 == b.2)

/-- examples/codedup.c:123-126: from `h` on, `n` lines are left of the minimum. -/
def matchLoop (ls : List (BitVec 32 × List Byte)) (i j : Nat) : (n h : Nat) → C Nat
  | 0, h => pure h
  | n + 1, h => do if ← line_equal ls (i + h) (j + h) then matchLoop ls i j n (h + 1) else pure h

/-- examples/codedup.c:129-130. -/
def extendLoop (ls : List (BitVec 32 × List Byte)) (i j : Nat) : (fuel h : Nat) → C Nat
  | 0, _ => .error .hang
  | fuel + 1, h =>
    if j + h < ls.length ∧ i + h < j then do
      if ← line_equal ls (i + h) (j + h) then extendLoop ls i j fuel (h + 1) else pure h
    else pure h

/-- examples/codedup.c:81: `struct sortitem`. -/
structure Item where
  dupes : Nat
  lineno : Nat
  deriving DecidableEq, Repr

/-- examples/codedup.c:56-61. -/
def sortitem_cmp (a b : Item) : Int :=
  if (b.dupes : Int) - a.dupes = 0 then (a.lineno : Int) - b.lineno else (b.dupes : Int) - a.dupes

/-- `tglist_insert_sorted` with this comparison: before the first item that is not smaller. By C83 the function inserts so that
    the list stays sorted; here no two items compare equal, so there is only one such place. -/
def insertSorted (x : Item) : List Item → List Item
  | [] => [x]
  | y :: ys => if sortitem_cmp y x < 0 then y :: insertSorted x ys else x :: y :: ys

/-- The map from lines to their duplicates. -/
abbrev Map := List (Nat × List Item)

/-- `hbmap_find` and `hbmap_getval`. -/
def find (m : Map) (k : Nat) : Option (List Item) := (m.find? (fun e => e.1 == k)).map Prod.snd

/-- examples/codedup.c:131-143: the list of line `i`, new or found in the map, gets another item. The list is reached through a
    pointer, so inserting into a list found in the map changes the map's entry. -/
def record (m : Map) (i : Nat) (x : Item) : Map :=
  match find m i with
  | none => m ++ [(i, insertSorted x [])]
  | some _ => m.map fun e => if e.1 = i then (i, insertSorted x e.2) else e

/-- examples/codedup.c:120-151: the loop over `j`; result: the map, `dupe_count` and `longest_dupe`. -/
def jLoop (ls : List (BitVec 32 × List Byte)) (bl i : Nat) :
    (fuel j : Nat) → Map → (count longest : Nat) → C (Map × Nat × Nat)
  | 0, _, _, _, _ => .error .hang
  | fuel + 1, j, m, count, longest =>
    if j + bl < ls.length then do
      let h ← matchLoop ls i j bl 0
      if h = bl then
        let h ← extendLoop ls i j (ls.length + 1) h
        jLoop ls bl i fuel (j + if h ≠ 0 then h else 1) (record m i ⟨h, j⟩) (count + 1) (if h > longest then h else longest)
      else jLoop ls bl i fuel (j + if h ≠ 0 then h else 1) m count longest
    else pure (m, count, longest)

/-- examples/codedup.c:116-154: the loop over `i`. -/
def iLoop (ls : List (BitVec 32 × List Byte)) (bl : Nat) : (fuel i : Nat) → Map → C Map
  | 0, _, _ => .error .hang
  | fuel + 1, i, m =>
    if i < ls.length then do
      let (m, count, longest) ← jLoop ls bl i (ls.length + 1) (i + bl) m 0 0
      iLoop ls bl fuel (i + if count ≠ 0 then longest else 1) m
    else pure m

/-! ### Printing -/

/-- examples/codedup.c:160-165: the longest of the duplicates. -/
def longestOf : List Item → (longest : Nat) → Nat
  | [], l => l
  | x :: xs, l => longestOf xs (if x.dupes > l then x.dupes else l)

/-- examples/codedup.c:159-169: the sorted list of the entries, visited in the order of `hbmap_foreach` (C41: every entry once);
    `none` if the assertion fails. -/
def collect : Map → List Item → C (Option (List Item))
  | [], si => pure (some si)
  | e :: m, si =>
    match e.2 with
    | [] => .error .oobRead
    | x :: xs =>
      let l := longestOf (x :: xs) 0
      if l = x.dupes then collect m (insertSorted ⟨l, e.1⟩ si) else pure none

/-- `printf("%d")` of a number that is not negative: its decimal digits. -/
def decimal (n : Nat) : List Byte :=
  if n < 10 then [BitVec.ofNat 8 (48 + n)] else decimal (n / 10) ++ [BitVec.ofNat 8 (48 + n % 10)]

/-- examples/codedup.c:174-178: the number of duplicates of full length. -/
def countFull (dupes : Nat) : List Item → Nat
  | [] => 0
  | x :: xs => if x.dupes < dupes then 0 else countFull dupes xs + 1

/-- examples/codedup.c:184-185: the numbers of the lines. -/
def printNumbers (start : Nat) : List Item → List Byte
  | [] => []
  | x :: xs => decimal (start + x.lineno) ++ (if xs = [] then bytes! ")\n" else bytes! ", ") ++ printNumbers start xs

/-- examples/codedup.c:186-187: the lines of the block, `n` still to be printed. -/
def printLines (ls : List (BitVec 32 × List Byte)) (lineno : Nat) : (n j : Nat) → C (List Byte)
  | 0, _ => pure []
  | n + 1, j => do
    let x ← at' ls (lineno + j)
    let r ← printLines ls lineno n (j + 1)
    pure (x.2 ++ bytes! "\n" ++ r)

/-- examples/codedup.c:170-188: what is printed for the entries; an entry that is not found would be an invalid access. -/
def report (ls : List (BitVec 32 × List Byte)) (start : Nat) (m : Map) : List Item → C (List Byte)
  | [] => pure []
  | si :: sis => do
    match find m si.lineno with
    | none => .error .oobRead
    | some dlist =>
      let cnt := countFull si.dupes dlist
      let head := bytes! "[DUP] " ++ decimal si.dupes ++ bytes! " lines at " ++ decimal (start + si.lineno) ++ bytes! ": " ++
        decimal cnt ++ bytes! " dupes ("
      let body ← printLines ls si.lineno si.dupes 0
      let r ← report ls start m sis
      pure (head ++ printNumbers start (dlist.take cnt) ++ body ++ r)

/-- examples/codedup.c:63-192 for a file `f` that can be opened: what is printed on standard output, `none` if an assertion fails.
    `w`, `bl`, `start`, `stop` are the options -w, -i, -s, -e; `ord` is the order in which
    `hbmap_foreach` visits the entries. `fuel` bounds the rounds of the loop over `i`; the loop is the only one that may not end. -/
def codedup (w : Bool) (bl start : Nat) (stop : Option Nat) (junk : List Byte) (ord : Map → Map) (fuel : Nat) (f : List Byte) :
    C (Option (List Byte)) := do
  let ls ← readLoop w start stop junk (f.length + 1) 0 f
  let m ← iLoop ls bl fuel 0 []
  match ← collect (ord m) [] with
  | none => pure none
  | some si => do pure (some (← report ls start m si))

end Ulz.Codedup

import Verif.Proofs.Wholefile
/-! Properties C78 and C96: writing and reading whole files. -/
namespace Ulz.Props
open Ulz.Wholefile Ulz.Wholefile.Spec Ulz.Stringptr Ulz.Stringptr.Spec

/-! ### C78 -/

/-- C78: whatever the system answers, stringptr_tofile either returns the number `r` of bytes that are in the file, these
    being the first `r` of the string, and all of them unless a write failed; or it still tries, no write having failed and
    fewer writes than the string has bytes having transferred something. -/
theorem stringptr_tofile_correct (p : SP) (s : List Byte) (h : Holds p s) (answers : List (Option Nat)) :
    (∃ r, stringptr_tofile true true (some p) answers = .ok (some (s.take r), r) ∧ r ≤ s.length ∧ (r < s.length → none ∈ answers)) ∨
    (stringptr_tofile true true (some p) answers = .error .hang ∧ none ∉ answers ∧ useful answers < s.length) := by
  unfold stringptr_tofile
  rcases tofileLoop_spec h answers 0 (by omega) with ⟨r, h1, h2, h3⟩ | ⟨h1, h2, h3⟩
  · left
    rw [List.take_zero] at h1
    refine ⟨r, ?_, h2, h3⟩
    simp only [Bool.not_true, Bool.or_self, Bool.false_eq_true, if_false]
    rw [h1]; rfl
  · right
    rw [List.take_zero] at h1
    refine ⟨?_, h2, h3⟩
    simp only [Bool.not_true, Bool.or_self, Bool.false_eq_true, if_false]
    rw [h1]; rfl

/-- C78: without a failing write, and with enough writes that transfer something, the file holds the string. -/
theorem stringptr_tofile_succeeds (p : SP) (s : List Byte) (h : Holds p s) (answers : List (Option Nat)) (h1 : none ∉ answers)
    (h2 : s.length ≤ useful answers) : stringptr_tofile true true (some p) answers = .ok (some s, s.length) := by
  rcases stringptr_tofile_correct p s h answers with ⟨r, h3, h4, h5⟩ | ⟨_, _, h5⟩
  · have : r = s.length := by
      rcases Nat.lt_or_ge r s.length with hr | hr
      · exact absurd (h5 hr) h1
      · omega
    rw [h3, this, List.take_length]
  · omega

/-- C78: a system that accepts nothing without failing keeps it busy forever. -/
theorem stringptr_tofile_stuck (p : SP) (s : List Byte) (h : Holds p s) (hs : s ≠ []) (n : Nat) :
    stringptr_tofile true true (some p) (List.replicate n (some 0)) = .error .hang := by
  unfold stringptr_tofile
  simp only [Bool.not_true, Bool.or_self, Bool.false_eq_true, if_false]
  rw [tofileLoop_zero h hs n]; rfl

/-- C78: NULL arguments, or a file that cannot be opened: nothing happens. -/
theorem stringptr_tofile_refused (name opens : Bool) (buffer : Option SP) (answers : List (Option Nat)) (h : name = false ∨ opens = false ∨ buffer = none) :
    stringptr_tofile name opens buffer answers = .ok (none, 0) := by
  unfold stringptr_tofile
  cases buffer with
  | none => rfl
  | some p =>
    simp only
    rw [if_pos]; · rfl
    rcases h with rfl | rfl | h
    · rfl
    · simp
    · exact absurd h (by simp)

example : stringptr_tofile true true (some ⟨bytes! "hello" ++ [0], 5⟩) [some 2, some 0, some 9, none] = .ok (some (bytes! "hello"), 5) := by
  decide
example : stringptr_tofile true true (some ⟨bytes! "hello" ++ [0], 5⟩) [some 2, none] = .ok (some (bytes! "he"), 2) := by
  decide
example (n : Nat) : stringptr_tofile true true (some ⟨bytes! "hello" ++ [0], 5⟩) (List.replicate (n + 5) (some 1)) = .ok (some (bytes! "hello"), 5) :=
  stringptr_tofile_succeeds _ (bytes! "hello") ⟨rfl, [0], rfl⟩ _ (by simp) (by simp [useful])

/-- C78: reading a file that has at least the size that was found before (`size`), whatever the system answers: NULL if a read
    failed or there is no memory; else the first `size` bytes, all of the file if it did not grow, terminated; or it still
    tries, no read having failed and fewer reads than bytes having transferred something. -/
theorem stringptr_fromfile_correct (size : Nat) (h0 : 0 < size) (hs : size + 17 < 2 ^ 64) (data : List Byte) (hd : size ≤ data.length) (f : Nat → Byte)
    (answers : List (Option Nat)) :
    (∃ p, stringptr_fromfile (some size) true (some f) data answers = .ok (some p) ∧ Holds p (data.take size) ∧ p.buf = data.take size ++ [0]) ∨
    (stringptr_fromfile (some size) true (some f) data answers = .ok none ∧ none ∈ answers) ∨
    (stringptr_fromfile (some size) true (some f) data answers = .error .hang ∧ none ∉ answers ∧ useful answers < size) := by
  obtain ⟨b, e1, e2⟩ := new_spec (f := f) (n := size) hs
  have key := fromfileLoop_spec data size hd (b ++ [0]) (by simp; omega) answers 0 (by omega)
  rw [List.take_zero, put_nil] at key
  unfold stringptr_fromfile getfilesize
  simp only [Option.getD_some]
  rw [if_neg (by omega), e1]
  simp only [Bool.not_true, Bool.false_eq_true, if_false, ok_bind]
  have hl : (data.take size).length = size := by simp; omega
  have hput : put (b ++ [0]) 0 (data.take size) = data.take size ++ [0] := by
    rw [put_zero, hl, ← e2, List.drop_left]
  rcases key with h1 | ⟨h1, h2⟩ | ⟨h1, h2, h3⟩
  · left
    rw [h1]
    exact ⟨⟨put (b ++ [0]) 0 (data.take size), size⟩, rfl, ⟨hl.symm, by simp only [hput]; exact List.prefix_append ..⟩, hput⟩
  · right; left
    rw [h1]; exact ⟨rfl, h2⟩
  · right; right
    rw [h1]; exact ⟨rfl, h2, h3⟩

/-- C78: an unchanged file, no failing read, enough reads that transfer something: the string holds the whole content. -/
theorem stringptr_fromfile_succeeds (data : List Byte) (h0 : data ≠ []) (hs : data.length + 17 < 2 ^ 64) (f : Nat → Byte) (answers : List (Option Nat))
    (h1 : none ∉ answers) (h2 : data.length ≤ useful answers) :
    ∃ p, stringptr_fromfile (some data.length) true (some f) data answers = .ok (some p) ∧ Holds p data := by
  rcases stringptr_fromfile_correct data.length (List.length_pos_iff.2 h0) hs data (Nat.le_refl _) f answers with ⟨p, h3, h4, _⟩ | ⟨_, h4⟩ | ⟨_, _, h4⟩
  · rw [List.take_length] at h4; exact ⟨p, h3, h4⟩
  · exact absurd h4 h1
  · omega

/-- C78: if the file has become shorter, it reads forever unless a read fails. -/
theorem stringptr_fromfile_shrunk (size : Nat) (hs : size + 17 < 2 ^ 64) (data : List Byte) (hd : data.length < size) (f : Nat → Byte) (answers : List (Option Nat)) :
    stringptr_fromfile (some size) true (some f) data answers = if none ∈ answers then .ok none else .error .hang := by
  obtain ⟨b, e1, e2⟩ := new_spec (f := f) (n := size) hs
  have key := fromfileLoop_short data size hd (b ++ [0]) (by simp; omega) answers 0 (by omega)
  rw [List.take_zero, put_nil] at key
  unfold stringptr_fromfile getfilesize
  simp only [Option.getD_some]
  rw [if_neg (by omega), e1]
  simp only [Bool.not_true, Bool.false_eq_true, if_false, ok_bind]
  rcases key with ⟨h1, h2⟩ | ⟨h1, h2⟩
  · rw [h1, if_pos h2]; rfl
  · rw [h1, if_neg h2]; rfl

/-- C78: NULL for a file that does not exist, is empty, cannot be opened or does not fit the memory. -/
theorem stringptr_fromfile_refused (st : Option Nat) (opens : Bool) (a : Alloc) (data : List Byte) (answers : List (Option Nat))
    (h : st = none ∨ st = some 0 ∨ opens = false ∨ a = none) : stringptr_fromfile st opens a data answers = .ok none := by
  unfold stringptr_fromfile getfilesize
  rcases h with rfl | rfl | rfl | rfl
  · rfl
  · rfl
  · simp only [Bool.not_false, if_true, ite_self]; rfl
  · simp only
    split
    · rfl
    · split <;> rfl

example (f : Nat → Byte) : ∃ p, stringptr_fromfile (some 5) true (some f) (bytes! "hello") [some 2, some 2, some 0, some 7, some 7, some 7] = .ok (some p) ∧ Holds p (bytes! "hello") :=
  stringptr_fromfile_succeeds (bytes! "hello") (by simp) (by decide) f _ (by decide) (by decide)
example (f : Nat → Byte) (n : Nat) : stringptr_fromfile (some 6) true (some f) (bytes! "hello") (List.replicate n (some 100)) = .error .hang := by
  rw [stringptr_fromfile_shrunk 6 (by decide) (bytes! "hello") (by decide) f, if_neg (by simp)]

/-- C78: what stringptr_tofile has written completely, stringptr_fromfile reads back. -/
theorem wholefile_roundtrip (p : SP) (s : List Byte) (h : Holds p s) (h0 : s ≠ []) (hs : s.length + 17 < 2 ^ 64) (ws rs : List (Option Nat)) (file : List Byte)
    (hw : stringptr_tofile true true (some p) ws = .ok (some file, s.length)) (f : Nat → Byte) (h1 : none ∉ rs) (h2 : s.length ≤ useful rs) :
    ∃ q, stringptr_fromfile (some file.length) true (some f) file rs = .ok (some q) ∧ Holds q s := by
  have e : file = s := by
    rcases stringptr_tofile_correct p s h ws with ⟨r, h3, _⟩ | ⟨h3, _⟩
    · rw [h3] at hw
      injection hw with hw
      injection hw with e1 e2
      injection e1 with e1
      rw [← e1, e2, List.take_length]
    · rw [h3] at hw; exact absurd hw (by simp)
  subst e
  exact stringptr_fromfile_succeeds file h0 hs f rs h1 h2

example (f : Nat → Byte) : ∃ q, stringptr_fromfile (some 5) true (some f) (bytes! "hello") (List.replicate 9 (some 1)) = .ok (some q) ∧ Holds q (bytes! "hello") :=
  wholefile_roundtrip ⟨bytes! "hello", 5⟩ (bytes! "hello") ⟨rfl, [], rfl⟩ (by simp) (by decide) [some 3, some 3] _ (bytes! "hello") (by decide) f (by decide) (by decide)

/-! ### C96 -/

/-- C96: stringptrlist_tofile returns 1, the file holding every string followed by a line feed, exactly if each write transfers all it
    is given; else it returns 0 and the file holds less, but a part of it from the start. -/
theorem stringptrlist_tofile_correct (l : List SP) (ss : List (List Byte)) (h : HoldsAll l ss) (answers : Nat → Option Nat) :
    (AllAccepted answers 0 ss → stringptrlist_tofile true answers l = .ok (some (joined ss), 1)) ∧
    (¬ AllAccepted answers 0 ss → ∃ t, stringptrlist_tofile true answers l = .ok (some t, 0) ∧ t <+: joined ss ∧ t ≠ joined ss) := by
  unfold stringptrlist_tofile
  simp only [Bool.not_true, Bool.false_eq_true, if_false]
  rcases listLoop_spec h answers 0 [] with ⟨h1, h2⟩ | ⟨t, h1, h2, h3, h4⟩
  · exact ⟨fun _ => by rw [h1]; rfl, fun h => absurd h2 h⟩
  · exact ⟨fun h => absurd h h4, fun _ => ⟨t, by rw [h1]; rfl, h2, h3⟩⟩

/-- C96: a file that cannot be opened. -/
theorem stringptrlist_tofile_refused (l : List SP) (answers : Nat → Option Nat) : stringptrlist_tofile false answers l = .ok (none, 0) := rfl

example : stringptrlist_tofile true (fun _ => some 100) [⟨bytes! "ab", 2⟩, ⟨bytes! "cd", 1⟩] = .ok (some (bytes! "ab\nc\n"), 1) := by decide
example : stringptrlist_tofile true (fun i => if i = 2 then some 0 else some 100) [⟨bytes! "ab", 2⟩, ⟨bytes! "cd", 1⟩] = .ok (some (bytes! "ab\n"), 0) := by decide

end Ulz.Props

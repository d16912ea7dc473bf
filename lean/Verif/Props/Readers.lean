import Verif.Proofs.Readers
/-! Property C218: the library's ways of reading a text line by line, compared. `full` are the lines that end with a line feed, `last` is
what follows the last one; `linesOf full last` are the lines of the file, where an empty `last` is none. -/
namespace Ulz.Props
open Ulz.Readers Ulz.Fileparser.Spec
open Ulz.Wholefile.Spec (useful)

/-- C218. The line reader gives the lines of the file, whatever they are, if its buffer has room for them. -/
theorem readers_parser (data : List Byte) (full : List (List Byte)) (last : List Byte) (h : Content data full last) (fd : Int) (hfd : fd ≠ 0)
    (uninit : List Byte) (len : Nat) (buf : List Byte) (h0 : 0 < buf.length) (hs : ∀ l ∈ linesOf full last, l.length + 1 ≤ buf.length) :
    parserLines data fd uninit len buf = .ok (some (linesOf full last)) := by
  unfold parserLines
  have := readline_enumerates data full last h fd hfd uninit len buf hs h0
  dsimp only
  rw [this]
  rfl

/-- C218. Reading the file as a whole and splitting it at line feeds gives one more, empty, line exactly if the file ends with a line feed,
    and else the lines of the file, of any length. -/
theorem readers_split (data : List Byte) (hne : data ≠ []) (hs : data.length + 17 < 2 ^ 64) (full : List (List Byte)) (last : List Byte)
    (h : Content data full last) (f : Nat → Byte) (answers : List (Option Nat)) (h1 : none ∉ answers) (h2 : data.length ≤ useful answers) :
    splitLines (some f) data answers = .ok (some (linesOf full last ++ if last = [] then [[]] else [])) ∧
      (splitLines (some f) data answers = .ok (some (linesOf full last)) ↔ data.getLast? ≠ some (ch '\n')) := by
  have e := split_spec hne hs h f h1 h2
  have e' : full ++ [last] = linesOf full last ++ if last = [] then [[]] else [] := by
    unfold linesOf
    by_cases hl : last = [] <;> simp [hl]
  rw [e, e']
  refine ⟨rfl, ?_⟩
  have hlast : last = [] ↔ data.getLast? = some (ch '\n') := by
    constructor
    · intro hl
      rw [h.eq, hl, List.append_nil]
      have hf : full ≠ [] := by
        intro hf
        apply hne
        rw [h.eq, hl, hf]
        rfl
      obtain ⟨init, x, rfl⟩ := List.eq_nil_or_concat full |>.resolve_left hf
      simp
    · intro hg
      apply Classical.byContradiction
      intro hl
      obtain ⟨init, x, rfl⟩ := List.eq_nil_or_concat last |>.resolve_left hl
      rw [h.eq, List.concat_eq_append, ← List.append_assoc, List.getLast?_concat] at hg
      exact h.lf' (by rw [Option.some.inj hg]; simp)
  rw [Ne, ← hlast]
  by_cases hl : last = []
  · simp [hl]
  · simp [hl]

/-- C218. `stringptrlist_fromfile`, with memory available, gives the lines of the file exactly if none of them is empty or has 1024 bytes or
    more. -/
theorem readers_list (mem : Nat → Alloc) (grow : Nat → Bool) (hmem : ∀ k, mem k ≠ none ∧ grow k = true) (data : List Byte)
    (full : List (List Byte)) (last : List Byte) (h : Content data full last) (fd : Int) (hfd : fd ≠ 0) (uninit : List Byte)
    (hb : uninit.length = 1024) (len : Nat) :
    listLines mem grow data fd uninit len = .ok (some (linesOf full last)) ↔ ∀ l ∈ linesOf full last, l ≠ [] ∧ l.length < 1024 := by
  obtain ⟨n, L, r, e, hL, -, hr⟩ := fromfile_correct mem grow data uninit fd len [] [] .nil full last h hfd hb
  have hr : r = 1 ∧ n = ((linesOf full last).takeWhile Taken).length := by
    rcases hr with hr | ⟨-, -, hr⟩
    · exact hr
    · exact absurd (hmem n) hr
  obtain ⟨rfl, rfl⟩ := hr
  unfold listLines
  rw [e]
  simp only [ok_bind, if_true]
  rw [texts_holds hL, List.nil_append, List.take_of_length_le (Nat.le_refl _)]
  constructor
  · intro h'
    have h' : (linesOf full last).takeWhile Taken = linesOf full last := Option.some.inj (Except.ok.inj h')
    intro l hl
    rw [← h'] at hl
    simpa [Taken] using takeWhile_mem hl
  · intro h'
    have : (linesOf full last).takeWhile Taken = linesOf full last := by
      apply takeWhile_all
      intro l hl
      simpa [Taken] using h' l hl
    rw [this]
    rfl

/-- C218. A loop over `read_stdin_line` with `chomp` gives the lines of a text without zero bytes exactly if it is empty or ends with a line
    feed, and the buffer has room for every line and two more bytes. -/
theorem readers_stdin (bufsize : Nat) (hb2 : 2 ≤ bufsize) (hi : bufsize < 2 ^ 31) (buf data : List Byte) (hb : bufsize ≤ buf.length)
    (h0 : (0 : Byte) ∉ data) (full : List (List Byte)) (last : List Byte) (h : Content data full last) :
    stdinLines bufsize buf data = .ok (linesOf full last) ↔ last = [] ∧ ∀ l ∈ full, l.length + 2 ≤ bufsize := by
  unfold stdinLines
  constructor
  · intro e
    obtain ⟨ps, hp, e'⟩ := stdin_pieces bufsize hb2 hi true buf data hb
    rw [e] at e'
    have e' := Except.ok.inj e'
    simp only [if_true] at e'
    have hlen := (pieces_length hp).2 h0
    rw [← e'] at hlen
    have hnum : ps.length = (linesOf full last).length := by rw [e', List.length_map]
    have hc := content_length h
    have hl : last = [] := by
      apply Classical.byContradiction
      intro hl
      have : linesOf full last = full ++ [last] := by simp [linesOf, hl]
      rw [this] at hlen hnum
      rw [List.length_append, List.length_singleton] at hnum
      omega
    refine ⟨hl, ?_⟩
    subst hl
    have hlo : linesOf full [] = full := by simp [linesOf]
    rw [hlo] at e
    have hd : Stdin.Spec.unlines full = data := by rw [h.eq]; simp [Stdin.Spec.unlines]
    obtain ⟨ls, k1, k2⟩ := (stdin_lines_iff bufsize hb2 hi buf data hb h0).1 ⟨full, e, hd⟩
    have : ls ++ [[]] = full ++ [[]] := by
      refine content_pieces h ?_ ?_ (by simp)
      · rw [join_content, List.append_nil, k1]; rfl
      · intro p hp
        rcases List.mem_append.1 hp with hp | hp
        · exact (k2 p hp).1
        · rw [List.mem_singleton.1 hp]; simp
    rw [List.append_cancel_right this] at k2
    exact fun l hl => (k2 l hl).2
  · rintro ⟨rfl, hf⟩
    have hlo : linesOf full [] = full := by simp [linesOf]
    have hd : data = Stdin.Spec.unlines full := by rw [h.eq]; simp [Stdin.Spec.unlines]
    rw [hlo]
    have key := stdin_lines bufsize hb2 hi buf hb full (fun l hl => ⟨h.lf l hl, fun hz => h0 (by
      rw [hd]
      exact List.mem_flatten_of_mem (List.mem_map_of_mem hl) (List.mem_append.2 (Or.inl hz)))⟩) hf
    rw [← hd] at key
    exact key

/-- C218. No text that is not empty is the same by splitting and by `read_stdin_line` with `chomp`, whatever the size of the buffer. -/
theorem readers_never_agree (data : List Byte) (hne : data ≠ []) (hs : data.length + 17 < 2 ^ 64) (f : Nat → Byte) (answers : List (Option Nat))
    (h1 : none ∉ answers) (h2 : data.length ≤ useful answers) (bufsize : Nat) (hb2 : 2 ≤ bufsize) (hi : bufsize < 2 ^ 31) (buf : List Byte)
    (hb : bufsize ≤ buf.length) :
    ∃ ls ls', splitLines (some f) data answers = .ok (some ls) ∧ stdinLines bufsize buf data = .ok ls' ∧ ls ≠ ls' := by
  obtain ⟨full, last, h⟩ := content_exists data
  obtain ⟨ps, hp, e⟩ := stdin_pieces bufsize hb2 hi true buf data hb
  refine ⟨_, _, split_spec hne hs h f h1 h2, e, fun heq => ?_⟩
  have hlen := (pieces_length hp).1
  simp only [if_true] at heq
  rw [← heq] at hlen
  have hnum : ps.length = (full ++ [last]).length := by rw [heq, List.length_map]
  rw [List.length_append, List.length_singleton] at hnum
  have hc := content_length h
  omega

/-- A file with an empty line and without a line feed at its end, and what the four readers make of it. -/
def readersData : List Byte := bytes! "ab\n\ncd"

example : Content readersData [bytes! "ab", []] (bytes! "cd") := ⟨by decide, by decide, by decide⟩

example : parserLines readersData 3 [] 0 (List.replicate 8 0) = .ok (some [bytes! "ab", [], bytes! "cd"]) := by decide +kernel
example : splitLines (some fun _ => 7) readersData (List.replicate 8 (some 1)) = .ok (some [bytes! "ab", [], bytes! "cd"]) := by decide +kernel
example : stdinLines 8 (List.replicate 8 0) readersData = .ok [bytes! "ab", [], bytes! "c"] := by decide +kernel
example : listLines (fun _ => some fun _ => 0) (fun _ => true) (bytes! "ab\n\n") 3 (List.replicate 1024 0) 0 = .ok (some [bytes! "ab"]) := by
  decide +kernel

end Ulz.Props

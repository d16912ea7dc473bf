import Verif.Proofs.Stdin
/-! C190: reading standard input line by line -/
namespace Ulz.Props
open Ulz.Stdin Ulz.Stdin.Spec

/-- C190. What a loop over read_stdin_line gets from any input: the pieces `fgets` cuts it into, each up to its first zero byte, and
    without the last byte of that if `chomp` is set. Any buffer of at least `bufsize` bytes will do, and the loop ends. -/
theorem stdin_pieces (bufsize : Nat) (h2 : 2 ≤ bufsize) (hi : bufsize < 2^31) (chomp : Bool) (buf inp : List Byte) (hb : bufsize ≤ buf.length) :
    ∃ ps, Pieces (bufsize - 1) inp ps ∧
      readAll bufsize chomp (inp.length + 1) buf inp = .ok (ps.map fun p => if chomp then (str p).dropLast else str p) :=
  readAll_spec h2 hi chomp (inp.length + 1) buf inp hb (Nat.lt_succ_self _)

/-- C190. There is only one way to cut a text into such pieces. -/
theorem stdin_pieces_unique (k : Nat) (t : List Byte) (ps ps' : List (List Byte)) (h : Pieces k t ps) (h' : Pieces k t ps') : ps = ps' :=
  pieces_unique h h'

/-- C190. Without `chomp` nothing of an input without zero bytes is lost. -/
theorem stdin_keep (bufsize : Nat) (h2 : 2 ≤ bufsize) (hi : bufsize < 2^31) (buf inp : List Byte) (hb : bufsize ≤ buf.length)
    (h0 : (0 : Byte) ∉ inp) : ∃ ls, readAll bufsize false (inp.length + 1) buf inp = .ok ls ∧ ls.flatten = inp := by
  obtain ⟨ps, hp, e⟩ := stdin_pieces bufsize h2 hi false buf inp hb
  have hf := pieces_flatten hp
  refine ⟨_, e, ?_⟩
  rw [← hf] at h0
  have : (ps.map fun p => if false = true then (str p).dropLast else str p) = ps := by
    conv => rhs; rw [← List.map_id ps]
    apply List.map_congr_left
    intro p hpm
    exact str_id fun h => h0 (List.mem_flatten_of_mem hpm h)
  rw [this, hf]

/-- C190. With `chomp`, lines that fit are what one gets. -/
theorem stdin_lines (bufsize : Nat) (h2 : 2 ≤ bufsize) (hi : bufsize < 2^31) (buf : List Byte) (hb : bufsize ≤ buf.length)
    (ls : List (List Byte)) (hn : ∀ l ∈ ls, ch '\n' ∉ l ∧ (0 : Byte) ∉ l) (hl : ∀ l ∈ ls, l.length + 2 ≤ bufsize) :
    readAll bufsize true ((unlines ls).length + 1) buf (unlines ls) = .ok ls := by
  obtain ⟨ps, hp, e⟩ := stdin_pieces bufsize h2 hi true buf (unlines ls) hb
  have hp' : ∀ ls : List (List Byte), (∀ l ∈ ls, ch '\n' ∉ l ∧ (0 : Byte) ∉ l) → (∀ l ∈ ls, l.length + 2 ≤ bufsize) →
      Pieces (bufsize - 1) (unlines ls) (ls.map (· ++ [ch '\n'])) := by
    intro ls
    induction ls with
    | nil => intro _ _; exact .nil
    | cons l ls ih =>
      intro hn hl
      have h1 := hl l (by simp)
      exact .cons ⟨by simp, by simp; omega, by simpa using (hn l (by simp)).1, fun _ => .inl (by simp)⟩
        (ih (fun x hx => hn x (by simp [hx])) (fun x hx => hl x (by simp [hx])))
  rw [e, pieces_unique hp (hp' ls hn hl), List.map_map]
  congr 1
  conv => rhs; rw [← List.map_id ls]
  apply List.map_congr_left
  intro l hlm
  have h0 := (hn l hlm).2
  show (str (l ++ [ch '\n'])).dropLast = l
  rw [str_id (by simp only [List.mem_append, not_or]; exact ⟨h0, by decide⟩), List.dropLast_concat]

/-- C190. And only those: the lines one gets make up the input again exactly if it is empty or ends with a newline and every line has
    room in the buffer. -/
theorem stdin_lines_iff (bufsize : Nat) (h2 : 2 ≤ bufsize) (hi : bufsize < 2^31) (buf inp : List Byte) (hb : bufsize ≤ buf.length)
    (h0 : (0 : Byte) ∉ inp) :
    (∃ ls, readAll bufsize true (inp.length + 1) buf inp = .ok ls ∧ unlines ls = inp) ↔
    ∃ ls, inp = unlines ls ∧ ∀ l ∈ ls, ch '\n' ∉ l ∧ l.length + 2 ≤ bufsize := by
  constructor
  · rintro ⟨ls, e1, e2⟩
    obtain ⟨ps, hp, e⟩ := stdin_pieces bufsize h2 hi true buf inp hb
    have hf := pieces_flatten hp
    have hls : ls = ps.map List.dropLast := by
      rw [e] at e1
      cases e1
      apply List.map_congr_left
      intro p hpm
      show (str p).dropLast = _
      rw [str_id fun h => h0 (hf ▸ List.mem_flatten_of_mem hpm h)]
    refine ⟨ls, e2.symm, ?_⟩
    rw [hls]
    intro l hl
    obtain ⟨p, hpm, rfl⟩ := List.mem_map.1 hl
    have hpc : ∀ {t : List Byte} {ps : List (List Byte)}, Pieces (bufsize - 1) t ps → ∀ p ∈ ps, ∃ r, Piece (bufsize - 1) p r := by
      intro t ps h
      induction h with
      | nil => intro p h; cases h
      | cons hp _ ih =>
        intro p h
        rcases List.mem_cons.1 h with rfl | h
        · exact ⟨_, hp⟩
        · exact ih p h
    obtain ⟨r, hne, hl, hnl, _⟩ := hpc hp p hpm
    have := List.length_pos_iff.2 hne
    exact ⟨hnl, by rw [List.length_dropLast]; omega⟩
  · rintro ⟨ls, rfl, h⟩
    refine ⟨ls, stdin_lines bufsize h2 hi buf hb ls (fun l hl => ⟨(h l hl).1, fun hz => h0 ?_⟩) (fun l hl => (h l hl).2), rfl⟩
    exact List.mem_flatten_of_mem (List.mem_map.2 ⟨l, hl, rfl⟩) (List.mem_append_left _ hz)

/-- C190. A buffer of one byte: the loop never ends, whatever the input. -/
theorem stdin_one_byte (chomp : Bool) (fuel : Nat) (b : Byte) (buf inp : List Byte) : readAll 1 chomp fuel (b :: buf) inp = .error .hang := by
  induction fuel generalizing b with
  | zero => rfl
  | succ n ih =>
    have h : readLine 1 chomp (b :: buf) inp = .ok (⟨0 :: buf, 0⟩, 0 :: buf, inp) := by cases chomp <;> rfl
    rw [readAll, h]
    simp only [ok_bindE]
    rw [if_neg (by simp), ih]
    rfl

/-- C190. A size that is no `int`: for 2^31 to 2^32 (and 0) every input looks empty. -/
theorem stdin_huge_size (bufsize : Nat) (h : bufsize = 0 ∨ 2^31 ≤ bufsize ∧ bufsize ≤ 2^32) (chomp : Bool) (fuel : Nat) (buf inp : List Byte) :
    readAll bufsize chomp (fuel + 1) buf inp = .ok [] := by
  have hi : (BitVec.ofNat 32 bufsize).toInt ≤ 0 := by
    rw [BitVec.toInt_eq_toNat_cond, BitVec.toNat_ofNat]
    split <;> omega
  have : readLine bufsize chomp buf inp = .ok (⟨[], 0⟩, buf, inp) := by
    unfold readLine fgets
    rw [if_pos hi]; rfl
  rw [readAll, this]
  rfl

/-- A line that fits, one that does not, a zero byte and no newline at the end. -/
example : readAll 5 true 16 (List.replicate 5 0xaa) (bytes! "abc\nlonger\nx" ++ [0] ++ bytes! "y") =
    .ok [bytes! "abc", bytes! "lon", bytes! "er", []] := by decide +kernel
example : Pieces 4 (bytes! "abc\nlonger\n") [bytes! "abc\n", bytes! "long", bytes! "er\n"] :=
  .cons (p := bytes! "abc\n") (rest := bytes! "longer\n") (by unfold Piece; decide +kernel)
    (.cons (p := bytes! "long") (rest := bytes! "er\n") (by unfold Piece; decide +kernel)
      (.cons (p := bytes! "er\n") (rest := []) (by unfold Piece; decide +kernel) .nil))
example : readAll 5 true 9 (List.replicate 5 0xaa) (unlines [bytes! "abc", [], bytes! "de"]) = .ok [bytes! "abc", [], bytes! "de"] :=
  stdin_lines 5 (by decide) (by decide) _ (by decide) _ (by decide +kernel) (by decide +kernel)

end Ulz.Props

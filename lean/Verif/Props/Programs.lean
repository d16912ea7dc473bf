import Verif.Proofs.Programs
/-! Properties of the example programs hex, diff, crc32_printer and find_identical_files (C103–C108). -/
namespace Ulz.Props
open Ulz.Programs Ulz.Programs.Spec Ulz.Stringptr.Spec Ulz.Numbers.Spec Ulz.Stringptr

/-- C103: hex prints the hexadecimal text of its input and a newline, in whatever pieces `read` delivers it. -/
theorem hex_program_correct (s : Scratch) (hs : s.Ok) (out : List Byte) (ho : out.length = 2049) (reads : List (List Byte))
    (hr : ∀ b ∈ reads, b.length ≤ 1024) :
    hex s out reads = .ok (Hex.Spec.text reads.flatten ++ bytes! "\n") :=
  hexLoop_spec hs reads 0 out ho hr

example (s : Scratch) (hs : s.Ok) (out : List Byte) (ho : out.length = 2049) : hex s out [[1, 0xab], [0]] = .ok (bytes! "01ab00\n") := by
  rw [hex_program_correct s hs out ho _ (by decide)]; decide
example : Scratch.Ok (fun _ => (List.replicate 4096 7, List.replicate 32 9)) := fun _ => ⟨List.length_replicate, List.length_replicate⟩

/-- C104: crc32_printer computes the three values for the whole file; the last is the complement of the second (JAMCRC). -/
theorem crc_printer_file (file : List Byte) : crcPrinter (-1) file =
    .ok (Crc.Spec.le32 (Crc.Spec.crc Crc.Spec.revCrc32c file), Crc.Spec.le32 (Crc.Spec.crc Crc.Spec.revCrc32 file), Crc.Spec.le32 (~~~ Crc.Spec.crc Crc.Spec.revCrc32 file)) := by
  unfold crcPrinter Crc.init
  rw [crcLoop_all _ _ _ (by omega), ok_bind]
  simp only [Crc.final_spec, r4final_eq, crc_bytes, BitVec.not_not]
  rfl

/-- C104: with a count from 0 to 65536, for that many bytes of the file, or all if it has less. -/
theorem crc_printer_count (n : Nat) (hn : n ≤ 65536) (file : List Byte) : crcPrinter (n : Int) file =
    .ok (Crc.Spec.le32 (Crc.Spec.crc Crc.Spec.revCrc32c (file.take n)), Crc.Spec.le32 (Crc.Spec.crc Crc.Spec.revCrc32 (file.take n)),
      Crc.Spec.le32 (~~~ Crc.Spec.crc Crc.Spec.revCrc32 (file.take n))) := by
  have e : ((n : Int) % 2 ^ 64).toNat = n := by omega
  unfold crcPrinter Crc.init
  rw [crcLoop_some (n : Int) (by omega), e, if_neg (by rw [List.length_take]; omega), ok_bind]
  simp only [Crc.final_spec, r4final_eq, crc_bytes, BitVec.not_not]
  rfl

/-- C104: the array overflows exactly when a count other than -1 is above 65536 or negative and the file has more bytes than the array. -/
theorem crc_printer_overflow (cnt : Int) (h32 : -2147483648 ≤ cnt ∧ cnt ≤ 2147483647) (file : List Byte) :
    crcPrinter cnt file = .error .oobWrite ↔ (65536 < cnt ∨ cnt < -1) ∧ 65536 < file.length := by
  by_cases h : cnt = -1
  · subst h
    rw [crc_printer_file]
    constructor
    · intro h; cases h
    · rintro ⟨h | h, _⟩ <;> omega
  · unfold crcPrinter
    rw [crcLoop_some _ h]
    rw [List.length_take]
    by_cases hb : 65536 < min (cnt % 2 ^ 64).toNat file.length
    · rw [if_pos hb]
      exact ⟨fun _ => by omega, fun _ => rfl⟩
    · rw [if_neg hb]
      constructor
      · intro h; cases h
      · intro h; omega

example : crcPrinter (-1) (bytes! "123456789") = .ok ([0x83, 0x92, 0x06, 0xe3], [0x26, 0x39, 0xf4, 0xcb], [0xd9, 0xc6, 0x0b, 0x34]) := by
  rw [crc_printer_file]; decide +kernel
example (file : List Byte) (h : file.length = 70000) : crcPrinter 70000 file = .error .oobWrite :=
  (crc_printer_overflow 70000 (by decide) file).2 (by omega)

/-- C105: the comparison says "identical" (0) exactly when the first file is the second one, or its beginning and a whole
    number of 16384-byte blocks long. -/
theorem compare_files_exact (f1 f2 : List Byte) : ∃ r, compare_files (some f1) (some f2) = .ok r ∧ (r = 0 ∨ r = 1) ∧
    (r = 0 ↔ f1 <+: f2 ∧ (f1 = f2 ∨ 16384 ∣ f1.length)) := compareLoop_spec _ f1 f2 (by omega)

/-- C105: files whose sizes have been found are printed exactly if they are equal (mode 0) or different (mode 1). -/
theorem identical_files_printed (f1 f2 : List Byte) (mode : Nat) (hm : mode = 0 ∨ mode = 1) :
    printed mode (some f1.length) (some f2.length) (some f1) (some f2) = .ok (decide ((f1 = f2) ↔ mode = 0)) := by
  unfold printed Wholefile.getfilesize
  simp only [Option.getD_some]
  by_cases hl : f1.length = f2.length
  · rw [if_neg (by simp [hl])]
    obtain ⟨r, h1, h2, h3⟩ := compare_files_exact f1 f2
    rw [h1]
    have : r = 0 ↔ f1 = f2 := by
      rw [h3]
      constructor
      · rintro ⟨h, _⟩; exact h.eq_of_length hl
      · intro h; exact ⟨by rw [h]; exact List.prefix_refl _, Or.inl h⟩
    simp only [ok_bind, pure_eq_ok]
    congr 2
    rw [← this]
    apply propext
    omega
  · rw [if_pos hl]
    have : f1 ≠ f2 := fun h => hl (by rw [h])
    rcases hm with rfl | rfl <;> simp [this]

/-- C105: but two files whose sizes cannot be found count as having the same size, and then a file can be taken for a longer one. -/
example (b : List Byte) : printed 0 none none (some []) (some b) = .ok true := rfl
example : printed 0 (some 2) (some 2) (some [1, 2]) (some [1, 3]) = .ok false := identical_files_printed [1, 2] [1, 3] 0 (.inl rfl)

/-- C106: the name on the second side is right exactly if both directories end in a slash or neither does (or the doubled
    slash, which does no harm, is all that is wrong). -/
theorem full_names (dir1 dir2 f : List Byte) :
    (fullNames dir1 dir2 f).1 = dir1 ++ (if dir1.getLast? = some (ch '/') then [] else [ch '/']) ++ f ∧
    ((fullNames dir1 dir2 f).2 = dir2 ++ (if dir2.getLast? = some (ch '/') then [] else [ch '/']) ++ f ↔
      (dir1.getLast? = some (ch '/') ↔ dir2.getLast? = some (ch '/'))) := by
  unfold fullNames endsWithSlash
  simp only [decide_eq_true_eq]
  refine ⟨trivial, ?_⟩
  by_cases h1 : dir1.getLast? = some (ch '/') <;> by_cases h2 : dir2.getLast? = some (ch '/') <;> simp [h1, h2]

example : (fullNames (bytes! "a/") (bytes! "b") (bytes! "x")).2 = bytes! "bx" := by decide

/-- C107: exactly what diff prints, for all files with at most 2^64 - 1 bytes; the first file's memory has one more byte, as
    stringptr_fromfile provides. -/
theorem diff_output (s : Scratch) (hs : s.Ok) (f1 f2 : SP) (A B : List Byte) (h1 : Holds f1 A) (h2 : Holds f2 B)
    (hroom : f1.size < f1.buf.length) (hA : A.length < 2 ^ 64) (hB : B.length < 2 ^ 64) :
    diff s (some f1) (some f2) = .ok (some (
      (if A.length = B.length then [] else bytes! "sizes differ! " ++ dec A.length ++ bytes! ", " ++ dec B.length ++ bytes! "\n") ++
      ((reports (min A.length B.length) 0 (differs A B)).map line).flatten ++
      (dec (reports (min A.length B.length) 0 (differs A B)).length ++ bytes! " differences in " ++ dec (min A.length B.length) ++ bytes! " bytes detected.\n"))) :=
  diff_spec hs h1 h2 hroom hA hB

/-- C107: the blocks reported are derived from the maximal blocks of differences. -/
theorem runs_are_maximal (d : List Bool) (o r : Nat) : (o, r) ∈ runs 0 d ↔ IsRun d o r := by
  rw [mem_runs _ d (Nat.le_refl _)]
  constructor
  · rintro ⟨j, rfl, h⟩; rw [Nat.zero_add]; exact h
  · intro h; exact ⟨o, (Nat.zero_add o).symm, h⟩

/-- C107: no difference is reported exactly if one file is the beginning of the other. -/
theorem diff_silent (A B : List Byte) : reports (min A.length B.length) 0 (differs A B) = [] ↔ A <+: B ∨ B <+: A := by
  have hp : ∀ n o r, pieces n o r ≠ [] := by
    intro n o r
    rw [pieces]
    split <;> simp
  have h1 : reports (min A.length B.length) 0 (differs A B) = [] ↔ ∀ i : Nat, (differs A B)[i]? ≠ some true := by
    unfold reports
    rw [List.flatMap_eq_nil_iff]
    constructor
    · intro h
      have hn : runs 0 (differs A B) = [] := by
        cases hr : runs 0 (differs A B) with
        | nil => rfl
        | cons q l => exact absurd (h q (by rw [hr]; exact List.mem_cons_self ..)) (hp _ _ _)
      clear h
      generalize (differs A B) = d at hn
      generalize 0 = k at hn
      induction d generalizing k with
      | nil => simp
      | cons c d ih =>
        cases c
        · rw [runs_false] at hn
          intro i
          cases i with
          | zero => simp
          | succ i => rw [List.getElem?_cons_succ]; exact ih _ hn i
        · rw [runs_true] at hn; simp at hn
    · rintro h ⟨o, r⟩ hq
      obtain ⟨h0, _, h2, _⟩ := (runs_are_maximal _ o r).1 hq
      exact absurd (h2 o (Nat.le_refl _) (by omega)) (h o)
  rw [h1]
  clear h1 hp
  unfold differs
  induction A generalizing B with
  | nil => simp
  | cons a A ih =>
    cases B with
    | nil => simp
    | cons b B =>
      simp only [List.zip_cons_cons, List.map_cons, List.cons_prefix_cons]
      constructor
      · intro h
        have h0 := h 0
        simp at h0
        have := (ih B).1 (fun i => by have := h (i + 1); rwa [List.getElem?_cons_succ] at this)
        rcases this with h | h
        · exact Or.inl ⟨h0, h⟩
        · exact Or.inr ⟨h0.symm, h⟩
      · intro h
        have h0 : a = b := by rcases h with h | h; exact h.1; exact h.1.symm
        have := (ih B).2 (by rcases h with h | h; exact Or.inl h.2; exact Or.inr h.2)
        intro i
        cases i with
        | zero => simp [h0]
        | succ i => rw [List.getElem?_cons_succ]; exact this i

/-- C107: a block at least as far from the end of the shorter file as it is long is reported as it is. -/
theorem diff_reports_block (A B : List Byte) (o r : Nat) (h : IsRun (differs A B) o r) (hfar : o + 2 * r ≤ min A.length B.length) :
    ((o : Int), r) ∈ reports (min A.length B.length) 0 (differs A B) := by
  unfold reports
  rw [List.mem_flatMap]
  refine ⟨(o, r), (runs_are_maximal _ o r).2 h, ?_⟩
  simp only
  rw [pieces, if_pos hfar]
  exact List.mem_singleton.2 rfl

/-- C108: every other block is reported as beginning one byte before it does, with the size computed from its distance to the
    end; for a block at the beginning of the file the offset -1 is printed as 2^64 - 1. -/
theorem diff_wrong_offset (A B : List Byte) (o r : Nat) (h : IsRun (differs A B) o r) (hnear : min A.length B.length < o + 2 * r) :
    ((o : Int) - 1, (min A.length B.length - o) / 2 + 1) ∈ reports (min A.length B.length) 0 (differs A B) ∧
    line ((0 : Int) - 1, r) = bytes! "difference at offset 18446744073709551615 of size " ++ dec r ++ bytes! "\n" := by
  refine ⟨?_, ?_⟩
  · unfold reports
    rw [List.mem_flatMap]
    refine ⟨(o, r), (runs_are_maximal _ o r).2 h, ?_⟩
    simp only
    rw [pieces, if_neg (by omega)]
    exact List.mem_cons_self ..
  · unfold line
    have e : dec (((0 : Int) - 1, r).1 % 2 ^ 64).toNat = bytes! "18446744073709551615" := by
      simp only
      decide +kernel
    rw [e]
    rfl

/-- Files that differ in their last byte only. -/
example (s : Scratch) (hs : s.Ok) : diff s (some ⟨bytes! "abc" ++ [0], 3⟩) (some ⟨bytes! "abd" ++ [0], 3⟩) =
    .ok (some (bytes! "difference at offset 1 of size 1\n1 differences in 3 bytes detected.\n")) := by
  rw [diff_output s hs _ _ (bytes! "abc") (bytes! "abd") ⟨rfl, [0], rfl⟩ ⟨rfl, [0], rfl⟩ (by decide) (by decide) (by decide)]
  decide +kernel

/-- C107: an empty file (for which stringptr_fromfile returns NULL) makes diff crash or fail its assertion. -/
theorem diff_null (s : Scratch) (f : Option SP) : diff s none f = .error .nullDeref ∧ ∀ p, diff s (some p) none = .ok none :=
  ⟨rfl, fun _ => rfl⟩

end Ulz.Props

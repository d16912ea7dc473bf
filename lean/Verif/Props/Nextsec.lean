import Verif.Proofs.Nextsec
/-! C176: the program that prints a value of every section of one name. -/
namespace Ulz.Props
open Ulz.Nextsec Ulz.Nextsec.Spec Ulz.Inifile.Spec
open Ulz.Stringptr.Spec (join)
open Ulz.Programs (Scratch)
open Ulz.Stringptr (SP)

/-- C176: for every text of a file (with one byte of memory behind it, as stringptr_fromfile leaves it), the program terminates, stays
    within the text, and prints one line for each section `section` that has a value for `value` that is not empty, in the order of the
    file, but only up to the first such section with no line at all between its header and the next line with a bracket. -/
theorem nextsection_prints (s : Scratch) (hs : s.Ok) (t junk : List Byte) (x : Byte) (ht : t.length + 1 < 2^64) :
    ∃ ls, join [ch '\n'] ls = t ∧ ls ≠ [] ∧ (∀ l ∈ ls, ch '\n' ∉ l) ∧
      main s (some ⟨t ++ x :: junk, t.length⟩) =
        .ok (report (bytes! "value") ((sections (bytes! "section") ls).takeWhile (· ≠ []))) := by
  obtain ⟨pcs, res, h1, h2, h3, h4, h5⟩ := stringptr_splitc_correct t junk x (ch '\n') (fun _ => true)
  rw [keep_everything] at h5
  obtain ⟨e1, e2⟩ := Inifile.entries_holds h5
  have hlen : pcs.length < 2^64 := by
    have := List.count_le_length (a := ch '\n') (l := t)
    omega
  refine ⟨pcs, h2, by intro e; rw [e] at h4; simp at h4, h3, ?_⟩
  unfold main
  have : Stringptr.splitc ⟨t ++ x :: junk, t.length⟩ 10 (fun _ => true) = .ok _ := h1
  simp only
  rw [this]
  simp only [ok_bind]
  rw [loop_spec hs e1 e2 hlen _ 0 0 ⟨0, 0⟩ rfl (Nat.zero_le _) (by rw [Iniparser.holdsAll_length e1]; omega),
    sections_eq _ _ _ 0 rfl, List.drop_zero]

/-- C176: for the text of a clean file: the values of the sections of that name before the first one without entries. -/
theorem nextsection_clean (s : Scratch) (hs : s.Ok) (ini : Ini) (hc : Clean ini) (junk : List Byte) (x : Byte)
    (ht : (text ini).length + 1 < 2^64) :
    main s (some ⟨text ini ++ x :: junk, (text ini).length⟩) =
      .ok (iniReport (bytes! "value") ((ini.filter fun s => s.1 = bytes! "section").takeWhile fun s => s.2 ≠ [])) := by
  obtain ⟨ls, h1, h2, h3, h4⟩ := nextsection_prints s hs (text ini) junk x ht
  have : ls = lines ini ++ [[]] := by
    refine Stringptr.join_inj h2 (by simp) h3 ?_ (h1.trans (Stringptr.lines_join (lines ini)))
    intro p hp
    rcases List.mem_append.1 hp with hp | hp
    · exact Inifile.lines_no_lf hc p hp
    · rw [List.mem_singleton.1 hp]; simp
  rw [h4, this, sections_clean _ (by decide) ini hc]

/-- C176: so if every section of that name has an entry, the values of all of them are printed. -/
theorem nextsection_complete (s : Scratch) (hs : s.Ok) (ini : Ini) (hc : Clean ini) (he : ∀ y ∈ ini, y.1 = bytes! "section" → y.2 ≠ [])
    (junk : List Byte) (x : Byte) (ht : (text ini).length + 1 < 2^64) :
    main s (some ⟨text ini ++ x :: junk, (text ini).length⟩) =
      .ok (iniReport (bytes! "value") (ini.filter fun s => s.1 = bytes! "section")) := by
  rw [nextsection_clean s hs ini hc junk x ht]
  congr 2
  have : ∀ l : Ini, (∀ y ∈ l, y.2 ≠ []) → (l.takeWhile fun s => decide (s.2 ≠ [])) = l := by
    intro l
    induction l with
    | nil => intro _; rfl
    | cons y l ih =>
      intro h
      rw [List.takeWhile_cons_of_pos (by simpa using h y (by simp)), ih fun z hz => h z (by simp [hz])]
  refine this _ fun y hy => ?_
  obtain ⟨h1, h2⟩ := List.mem_filter.1 hy
  exact he y h1 (by simpa using h2)

/-- C176: and whatever follows a section of that name without entries is not printed. -/
theorem nextsection_stops (s : Scratch) (hs : s.Ok) (a b : Ini) (hc : Clean (a ++ (bytes! "section", []) :: b)) (junk : List Byte) (x : Byte)
    (ht : (text (a ++ (bytes! "section", []) :: b)).length + 1 < 2^64) (ha : ∀ y ∈ a, y.1 = bytes! "section" → y.2 ≠ []) :
    main s (some ⟨text (a ++ (bytes! "section", []) :: b) ++ x :: junk, (text (a ++ (bytes! "section", []) :: b)).length⟩) =
      .ok (iniReport (bytes! "value") (a.filter fun s => s.1 = bytes! "section")) := by
  rw [nextsection_clean s hs _ hc junk x ht]
  congr 2
  rw [List.filter_append, List.filter_cons_of_pos (by simp)]
  have : ∀ l r : Ini, (∀ y ∈ l, y.2 ≠ []) →
      (l ++ ((bytes! "section", []) : List Byte × List (List Byte × List Byte)) :: r).takeWhile (fun s => decide (s.2 ≠ [])) = l := by
    intro l r
    induction l with
    | nil => intro _; simp
    | cons y l ih =>
      intro h
      rw [List.cons_append, List.takeWhile_cons_of_pos (by simpa using h y (by simp)), ih fun z hz => h z (by simp [hz])]
  refine this _ _ fun y hy => ?_
  obtain ⟨h1, h2⟩ := List.mem_filter.1 hy
  exact ha y h1 (by simpa using h2)

/-- C176: if the file is missing, empty or not readable, the program dereferences NULL. -/
theorem nextsection_null (s : Scratch) : main s none = .error .nullDeref := rfl

private def three : Ini :=
  [(bytes! "section", [(bytes! "value", bytes! "test1"), (bytes! "x", bytes! "1")]), (bytes! "other", [(bytes! "value", bytes! "no")]),
   (bytes! "section", [(bytes! "value", [])]), (bytes! "section", [(bytes! "a", []), (bytes! "value", bytes! "test2")])]

private theorem three_clean : Clean three := by
  refine ⟨?_, ?_, ?_⟩ <;> decide

/-- Two of four sections have a value; with an empty section in front, none is printed. -/
example (s : Scratch) (hs : s.Ok) : main s (some ⟨text three ++ [7], (text three).length⟩) =
    .ok (bytes! "value of section: test1\nvalue of section: test2\n") := by
  rw [nextsection_complete s hs three three_clean (by decide) [] 7 (by decide +kernel)]
  decide +kernel
example (s : Scratch) (hs : s.Ok) : main s (some ⟨text ((bytes! "section", []) :: three) ++ [7], (text ((bytes! "section", []) :: three)).length⟩) =
    .ok [] :=
  nextsection_stops s hs [] three ⟨by decide, by decide, by decide⟩ [] 7 (by decide +kernel) (by simp)

end Ulz.Props

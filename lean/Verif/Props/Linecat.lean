import Verif.Proofs.Linecat
import Verif.Props.Wholefile
/-! Property C182: the example programs that print a file line by line and save a text. -/
namespace Ulz.Props
open Ulz.Linecat
open Ulz.Fileparser.Spec (Content linesOf)
open Ulz.Fpio (Ans)
open Ulz.Fpio.Spec (Good)

/-- C182: for every regular file the program prints its lines, each up to its first NUL and with a line feed, up to but not
    including the first line of 1024 or more bytes; there it stops. -/
theorem fileparser_test_prints (ans : Nat → Ans) (hg : ∀ k, Good 1024 (ans k)) (data : List Byte) (full : List (List Byte))
    (last : List Byte) (h : Content data full last) (fd : Int) (hfd : fd ≠ 0) (fpos len : Nat) (uninit : List Byte)
    (hu : uninit.length = 1024) :
    Linecat.main ans (some (data, fd)) fpos len uninit =
      .ok (((linesOf full last).takeWhile fun l => decide (l.length < 1024)).map (cstr · ++ [ch '\n'])).flatten :=
  loop_good hg full last _ 0 _ _ (Fileparser.content_at h hfd uninit len) hu (by simp [Fileparser.openFile])

/-- C182: a file of short lines without NUL is copied; if it does not end with a line feed, one is added. -/
theorem fileparser_test_copies (ans : Nat → Ans) (hg : ∀ k, Good 1024 (ans k)) (data : List Byte) (full : List (List Byte))
    (last : List Byte) (h : Content data full last) (h0 : 0 ∉ data) (hs : ∀ l ∈ linesOf full last, l.length < 1024) (fd : Int)
    (hfd : fd ≠ 0) (fpos len : Nat) (uninit : List Byte) (hu : uninit.length = 1024) :
    Linecat.main ans (some (data, fd)) fpos len uninit = .ok (data ++ if last = [] then [] else [ch '\n']) := by
  rw [fileparser_test_prints ans hg data full last h fd hfd fpos len uninit hu,
    Fileparser.takeWhile_all (by simpa using hs)]
  congr 1
  have hc : ∀ l ∈ linesOf full last, cstr l = l := fun l hl => by
    have : 0 ∉ l := fun hh => by
      apply h0
      rw [h.eq]
      rcases List.mem_append.1 hl with hl | hl
      · exact List.mem_append.2 (.inl (List.mem_flatten.2 ⟨l ++ [ch '\n'], List.mem_map.2 ⟨l, hl, rfl⟩, List.mem_append.2 (.inl hh)⟩))
      · by_cases hz : last = []
        · simp [hz] at hl
        · rw [if_neg hz, List.mem_singleton] at hl
          subst hl
          exact List.mem_append.2 (.inr hh)
    exact Fileparser.takeWhile_all fun c hc => by simpa using fun e : c = 0 => this (e ▸ hc)
  rw [List.map_congr_left (g := (· ++ [ch '\n'])) fun l hl => by rw [hc l hl], h.eq]
  unfold linesOf
  by_cases hz : last = []
  · simp [hz]
  · simp [hz]

/-- The file without newline at its end of the comment in the program. -/
example (uninit : List Byte) (hu : uninit.length = 1024) :
    Linecat.main (fun _ => ⟨.upTo 4095, none⟩) (some (bytes! "int x;\n\n// end", 3)) 77 88 uninit = .ok (bytes! "int x;\n\n// end\n") :=
  fileparser_test_copies _ (fun _ => ⟨⟨4095, by decide, rfl⟩, rfl⟩) _ [bytes! "int x;", []] (bytes! "// end")
    ⟨by decide, by decide, by decide⟩ (by decide) (by decide) 3 (by decide) _ _ _ hu

/-- A line of 1024 bytes: what is behind it is not printed. -/
example (x : List Byte) (hx : x.length = 1024) (hl : ch '\n' ∉ x) (uninit : List Byte) (hu : uninit.length = 1024) :
    Linecat.main (fun _ => ⟨.upTo 4095, none⟩) (some (bytes! "a\n" ++ (x ++ bytes! "\nb\n"), 3)) 77 88 uninit = .ok (bytes! "a\n") := by
  rw [fileparser_test_prints _ (fun _ => ⟨⟨4095, by decide, rfl⟩, rfl⟩) _ [bytes! "a", x, bytes! "b"] []
    ⟨by simp only [List.map_cons, List.map_nil, List.flatten_cons, List.flatten_nil, List.append_nil]
        rw [List.append_assoc x]; rfl,
      by intro l h
         simp only [List.mem_cons, List.not_mem_nil, or_false] at h
         rcases h with rfl | rfl | rfl
         · decide
         · exact hl
         · decide, by decide⟩ 3 (by decide) _ _ _ hu]
  have : (linesOf [bytes! "a", x, bytes! "b"] []).takeWhile (fun l => decide (l.length < 1024)) = [bytes! "a"] := by
    simp only [linesOf, if_true, List.append_nil]
    rw [List.takeWhile_cons_of_pos (by decide), List.takeWhile_cons_of_neg (by rw [hx]; decide)]
  rw [this]
  decide

/-- C182: whatever the system answers (an errno is not 0), the program ends without undefined behaviour, and it prints pieces of the
    file, none with a line feed or of 1024 bytes, each up to its first NUL and with a line feed. -/
theorem fileparser_test_runs (ans : Nat → Ans) (he : ∀ k, (ans k).r ≠ .fail 0) (hs : ∀ k, (ans k).s ≠ some 0)
    (data : List Byte) (fd : Int) (hfd : fd ≠ 0) (fpos len : Nat) (uninit : List Byte) (hu : uninit.length = 1024) :
    ∃ ts : List (List Byte), (∀ t ∈ ts, t <:+: data ∧ t.length < 1024 ∧ ch '\n' ∉ t) ∧
      Linecat.main ans (some (data, fd)) fpos len uninit = .ok (ts.map (cstr · ++ [ch '\n'])).flatten :=
  loop_any he hs data _ 0 _ _ rfl hfd hu (Nat.le_refl _) (by simp)

example : (∀ k : Nat, (if k = 2 then (.fail 5 : Fpio.RAns) else .upTo k) ≠ .fail 0) := by
  intro k; split <;> simp

/-- C182: nothing is printed if the file cannot be opened, if `open` gave the descriptor 0, or from a pipe whose first delivery
    holds a line feed (there `lseek` fails). -/
theorem fileparser_test_silent (ans : Nat → Ans) (fpos len : Nat) (uninit : List Byte) (hu : uninit.length = 1024) :
    Linecat.main ans none fpos len uninit = .ok [] ∧
    (∀ data, Linecat.main ans (some (data, 0)) fpos len uninit = .ok []) ∧
    ∀ data fd n e, fd ≠ 0 → ans 0 = ⟨.upTo n, some e⟩ → e ≠ 0 → ch '\n' ∈ data.take (min 1024 (n + 1)) →
      Linecat.main ans (some (data, fd)) fpos len uninit = .ok [] := by
  refine ⟨?_, fun data => ?_, fun data fd n e hfd ha he hlf => ?_⟩
  · exact loop_stop (ans := fun k => ⟨.fail 9, (ans k).s⟩) (Fpio.readline_def _ _ _ (Fpio.io_fail (e := 9) (show (-1 : Int) ≠ 0 by decide) rfl)) (by decide)
  · exact loop_stop (f' := ⟨data, 0⟩) (p' := ⟨0, len, uninit, 0⟩) (r := -1) rfl (by decide)
  · obtain ⟨l, m, e1, e2⟩ := split_lf hlf
    obtain ⟨J, _, e3⟩ := Fpio.io_line (a := ans 0) (f := ⟨data, 0⟩) (p := ⟨0, len, uninit, fd⟩) (buf := uninit) (n := 1024) (k := n)
      hfd (by rw [ha]) (by rw [Fpio.got]; exact e1) e2 (by omega)
    refine loop_stop (Fpio.readline_def (ans 0) ⟨data, 0⟩ ⟨0, len, uninit, fd⟩ e3) ?_
    rw [ha]
    simp only [Option.getD_some]
    omega

example (uninit : List Byte) (hu : uninit.length = 1024) :
    Linecat.main (fun _ => ⟨.upTo 4095, some 29⟩) (some (bytes! "piped\ntext\n", 3)) 77 88 uninit = .ok [] :=
  (fileparser_test_silent _ 77 88 uninit hu).2.2 _ 3 4095 29 (by decide) rfl (by decide) (by decide)

/-- C182: stringptr_test1: if no write fails and enough of them transfer something, test.txt holds exactly `test`, whatever was
    there before; in any case, if it ends, the file holds a prefix of `test`, or is untouched if it cannot be opened. -/
theorem stringptr_test1_saves (answers : List (Option Nat)) :
    (none ∉ answers → 4 ≤ Wholefile.Spec.useful answers → save true answers = .ok (some (bytes! "test"))) ∧
    (save true answers = .error .hang ∨ ∃ r, save true answers = .ok (some ((bytes! "test").take r))) ∧
    save false answers = .ok none := by
  have hh : Stringptr.Spec.Holds ⟨bytes! "test" ++ [0], 4⟩ (bytes! "test") := ⟨rfl, [0], rfl⟩
  refine ⟨fun h1 h2 => ?_, ?_, ?_⟩
  · unfold save
    rw [stringptr_tofile_succeeds _ _ hh answers h1 h2]; rfl
  · rcases stringptr_tofile_correct _ _ hh answers with ⟨r, h1, _⟩ | ⟨h1, _⟩
    · exact .inr ⟨r, by unfold save; rw [h1]; rfl⟩
    · exact .inl (by unfold save; rw [h1]; rfl)
  · unfold save
    rw [stringptr_tofile_refused _ _ _ _ (.inr (.inl rfl))]; rfl

example : none ∉ [some 3, some 0, some 1, some 5, some 2] ∧ 4 ≤ Wholefile.Spec.useful [some 3, some 0, some 1, some 5, some 2] := by decide

end Ulz.Props

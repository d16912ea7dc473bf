import Verif.Proofs.Iniparser
/-! Properties C66 to C68: the INI reader. -/
namespace Ulz.Props
open Ulz.Iniparser Ulz.Iniparser.Spec
open Ulz.Stringptr (SP)
open Ulz.Stringptr.Spec (Holds HoldsAll)

/-- C66: `iniparser_get_section` looks for the first header of the section. If the file has none, the result is the empty
    section; otherwise it is the line below that header, and the number of lines from there to the next line that starts
    with a bracket, or to the end. The same holds for a search that starts at a later line. -/
theorem get_section_correct (l : List SP) (ls : List (List Byte)) (hl : HoldsAll l ls) (name : SP) (n : List Byte) (hname : Holds name n)
    (hn : n.length + 2 < 2 ^ 64) (start : Nat) :
    ((∀ i line, start ≤ i → ls[i]? = some line → ¬Header n line) → get_section_at l name start = .ok ⟨0, 0⟩) ∧
    (∀ h line, start ≤ h → ls[h]? = some line → Header n line →
      (∀ i line, start ≤ i → i < h → ls[i]? = some line → ¬Header n line) →
      get_section_at l name start = .ok ⟨h + 1, ((ls.drop (h + 1)).takeWhile fun l => decide ¬Bracket l).length⟩) := by
  have e := get_section_at_spec hl hname hn start
  have mem : ∀ h, h ∈ headers ls n start → ∃ line, ls[h]? = some line ∧ Header n line := by
    intro h hh
    have := (List.mem_filter.1 hh).2
    simp only [decide_eq_true_eq] at this
    obtain ⟨line, h1, h2⟩ := this
    exact ⟨line, h1, h2⟩
  have mem' : ∀ h line, start ≤ h → ls[h]? = some line → Header n line → h ∈ headers ls n start := by
    intro h line h1 h2 h3
    have : h < ls.length := (List.getElem?_eq_some_iff.1 h2).1
    refine List.mem_filter.2 ⟨List.mem_range'_1.2 ⟨h1, by omega⟩, ?_⟩
    rw [decide_eq_true_eq]
    exact ⟨line, h2, h3⟩
  constructor
  · intro hno
    cases hh : headers ls n start with
    | nil => rw [e, hh]
    | cons x xs =>
      obtain ⟨line, h1, h2⟩ := mem x (by rw [hh]; simp)
      exact absurd h2 (hno x line (headers_lt (n := n) (i := start) (by rw [hh]; simp)).1 h1)
  · intro h line h1 h2 h3 h4
    cases hh : headers ls n start with
    | nil =>
      have := mem' h line h1 h2 h3
      rw [hh] at this
      simp at this
    | cons x xs =>
      have hx : start ≤ x ∧ x < ls.length := headers_lt (n := n) (i := start) (by rw [hh]; simp)
      obtain ⟨line', g1, g2⟩ := mem x (by rw [hh]; simp)
      have hge : h ≤ x := by
        apply Classical.byContradiction
        intro hlt
        exact h4 x line' hx.1 (by omega) g1 g2
      have hm := mem' h line h1 h2 h3
      rw [hh] at hm
      rcases List.mem_cons.1 hm with rfl | hm
      · rw [e, hh]; rfl
      · have := headers_tail _ _ _ _ rfl hh
        rw [this] at hm
        have := (headers_lt hm).1
        omega

/-- C66: `iniparser_get_section` starts at the first line. -/
theorem get_section_first (l : List SP) (name : SP) : get_section l name = get_section_at l name 0 := rfl

/-- C66: beginning with `iniparser_get_section` and going on with `iniparser_get_next_section` until the empty section comes
    back, one gets the section below every header of the name, each once, in the order of the file. -/
theorem get_next_section_visits (l : List SP) (ls : List (List Byte)) (hl : HoldsAll l ls) (name : SP) (n : List Byte)
    (hname : Holds name n) (hn : n.length + 2 < 2 ^ 64) (hlen : ls.length < 2 ^ 64) :
    ∃ r, get_section l name = .ok r ∧ visit l name (ls.length + 1) r = .ok ((headers ls n 0).map (sect ls)) :=
  ⟨_, get_section_at_spec hl hname hn 0, visit_spec hl hname hn hlen _ 0 (by omega) (by omega)⟩

/-- Three sections, two of them with the name `a`. -/
private def sample : List (List Byte) := [bytes! "x=1", bytes! "[a]", bytes! "k=1", bytes! "[b]", bytes! "k=2", bytes! "[a] ", bytes! "k=3", bytes! "l=4"]

example : HoldsAll (sample.map fun s => ⟨s, s.length⟩) sample :=
  (show ∀ ls : List (List Byte), HoldsAll (ls.map fun s => ⟨s, s.length⟩) ls from fun ls => by
    induction ls with
    | nil => exact .nil
    | cons s ls ih => exact .cons ⟨rfl, [], by simp⟩ ih) sample

example : (headers sample (bytes! "a") 0).map (sect sample) = [⟨2, 1⟩, ⟨6, 2⟩] := by decide

/-- C67: `iniparser_getvalue_at` for every file, section, key and first line: if some line from there to the end of the
    section has the form `key=value`, the index of the first such line is returned and the result is exactly its value;
    otherwise it returns -1 and a NULL result. -/
theorem getvalue_at_correct (l : List SP) (ls : List (List Byte)) (hl : HoldsAll l ls) (key : SP) (k : List Byte) (hkey : Holds key k)
    (s : Sect) (hs : s.startline + s.linecount < 2 ^ 64) (start : Nat) :
    (∃ i v r, getvalue_at l s key start = .ok (some i, some r) ∧ Holds r v ∧ start ≤ i ∧ i < s.startline + s.linecount ∧
      ls[i]? = some (k ++ ch '=' :: v) ∧ ∀ j, start ≤ j → j < i → ∀ v, ls[j]? ≠ some (k ++ ch '=' :: v)) ∨
    (getvalue_at l s key start = .ok (none, none) ∧
      ∀ i, start ≤ i → i < s.startline + s.linecount → ∀ v, ls[i]? ≠ some (k ++ ch '=' :: v)) := by
  unfold getvalue_at
  simp only
  rw [szt_of_lt hs]
  rcases valLoop_spec hl hkey (maxline := s.startline + s.linecount) (s.startline + s.linecount - start + 1) start (by omega) (by omega) with
    ⟨j, v, h1, h2, h3, h4, r, h5, h6⟩ | ⟨h1, h2⟩
  · exact Or.inl ⟨j, v, r, h5, h6, h1, h2, h3, h4⟩
  · exact Or.inr ⟨h2, h1⟩

/-- C67: `iniparser_getvalue` returns the value of the first definition of the key in the section, and NULL exactly when
    there is none. -/
theorem getvalue_correct (l : List SP) (ls : List (List Byte)) (hl : HoldsAll l ls) (key : SP) (k : List Byte) (hkey : Holds key k)
    (s : Sect) (hs : s.startline + s.linecount < 2 ^ 64) :
    (∃ i v r, getvalue l s key = .ok (some r) ∧ Holds r v ∧ s.startline ≤ i ∧ i < s.startline + s.linecount ∧
      ls[i]? = some (k ++ ch '=' :: v) ∧ ∀ j, s.startline ≤ j → j < i → ∀ v, ls[j]? ≠ some (k ++ ch '=' :: v)) ∨
    (getvalue l s key = .ok none ∧
      ∀ i, s.startline ≤ i → i < s.startline + s.linecount → ∀ v, ls[i]? ≠ some (k ++ ch '=' :: v)) := by
  unfold getvalue
  rcases getvalue_at_correct l ls hl key k hkey s hs s.startline with ⟨i, v, r, h, h'⟩ | ⟨h, h'⟩
  · exact Or.inl ⟨i, v, r, by rw [h]; rfl, h'⟩
  · exact Or.inr ⟨by rw [h]; rfl, h'⟩

/-- C67: the whole file as a section: every line is searched. -/
theorem file_as_section_correct (l : List SP) (ls : List (List Byte)) (hl : HoldsAll l ls) : file_as_section l = ⟨0, ls.length⟩ := by
  rw [← holdsAll_length hl]; rfl

example : ∃ i v, sample[i]? = some (bytes! "k" ++ ch '=' :: v) ∧ 6 ≤ i ∧ i < 8 := ⟨6, bytes! "3", rfl, by decide, by decide⟩

open Classical in
/-- C68: `iniparser_count_sections` counts exactly the lines of at least three bytes that start with `[` and whose last
    character that is neither blank nor tab is `]`. -/
theorem count_sections_correct (l : List SP) (ls : List (List Byte)) (hl : HoldsAll l ls) :
    count_sections l = .ok (ls.countP fun t => decide (Counted t)) := by
  unfold count_sections
  rw [countLoop_spec hl, Nat.zero_add]

example : Counted (bytes! "[a]  ") ∧ ¬Counted (bytes! "[]") ∧ ¬Counted (bytes! "[a]x") := by
  refine ⟨⟨by decide, bytes! "a", bytes! "  ", by decide, by decide⟩, fun h => absurd h.1 (by decide), ?_⟩
  rintro ⟨_, mid, blanks, h, hb⟩
  match mid, h with
  | [], h => simp at h; exact absurd h.2.1 (by decide)
  | [a], h =>
    simp at h
    obtain ⟨_, _, _, rfl⟩ := h
    exact absurd (hb 120 (by simp)) (by decide)
  | [a, b], h => simp at h; exact absurd h.2.2.2.1 (by decide)
  | a :: b :: c :: m, h => simp at h

end Ulz.Props

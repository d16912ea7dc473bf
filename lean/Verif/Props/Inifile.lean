import Verif.Proofs.Inifile
/-! C146, C147: values in the text of an INI file. -/
set_option linter.unusedVariables false
namespace Ulz.Props
open Ulz.Inifile Ulz.Inifile.Spec
open Ulz.Stringptr (SP)
open Ulz.Stringptr.Spec (Holds join)
open Ulz.Iniparser.Spec (Header Bracket)

/-- The lookup returned `v`: NULL if it is `none`, otherwise exactly the text, with a zero byte behind it (so that
    it can be printed with `%s`). -/
def Found (v : Option (List Byte)) (r : Option SP) : Prop :=
  match v, r with
  | none, none => True
  | some v, some r => r.size = v.length ∧ v ++ [0] <+: r.buf
  | _, _ => False

/-- C146. For every text (with one byte of memory behind it), section and key, the program stays within the buffer,
    and the result is the value that the lines of the text give to the key in that section. -/
theorem ini_lookup_text (t junk : List Byte) (x : Byte) (ht : t.length + 1 < 2^64) (sec key : SP) (s k : List Byte)
    (hsec : Holds sec s) (hs : s.length + 2 < 2^64) (hkey : Holds key k) :
    ∃ ls r, join [ch '\n'] ls = t ∧ ls ≠ [] ∧ (∀ l ∈ ls, ch '\n' ∉ l) ∧
      lookup ⟨t ++ x :: junk, t.length⟩ (fun _ => true) sec key = .ok r ∧ Found (lineValue ls s k) r := by
  obtain ⟨pcs, res, h1, h2, h3, h4, h5⟩ := stringptr_splitc_correct t junk x (ch '\n') (fun _ => true)
  rw [keep_everything] at h5
  obtain ⟨e1, e2⟩ := entries_holds h5
  have hlen : pcs.length < 2^64 := by
    have := List.count_le_length (a := ch '\n') (l := t)
    omega
  have hl : ∀ r : Option SP, (∃ sx, Iniparser.get_section (entries (t.map (fun c => if c = ch '\n' then 0 else c) ++ 0 :: junk) res) sec = .ok sx ∧
      Iniparser.getvalue (entries (t.map (fun c => if c = ch '\n' then 0 else c) ++ 0 :: junk) res) sx key = .ok r) →
      lookup ⟨t ++ x :: junk, t.length⟩ (fun _ => true) sec key = .ok r := by
    rintro r ⟨sx, g1, g2⟩
    unfold lookup
    have : Stringptr.splitc ⟨t ++ x :: junk, t.length⟩ 10 (fun _ => true) = .ok _ := h1
    rw [this]
    simp only [ok_bind]
    rw [g1]
    simp only [ok_bind]
    exact g2
  obtain ⟨sx, g1, g2⟩ := lookup_lines e1 e2 hlen hsec hs hkey
  have hne : pcs ≠ [] := by intro e; rw [e] at h4; simp at h4
  rcases g2 with ⟨r, v, a1, a2, a3, a4⟩ | ⟨a1, a2⟩
  · exact ⟨pcs, some r, h2, hne, h3, hl _ ⟨sx, g1, a1⟩, by rw [a2]; exact ⟨a3, a4⟩⟩
  · exact ⟨pcs, none, h2, hne, h3, hl _ ⟨sx, g1, a1⟩, by rw [a2]; trivial⟩

/-- The same for a text made of lines that end in LF. -/
theorem ini_lookup_lines (ls : List (List Byte)) (hn : ∀ l ∈ ls, ch '\n' ∉ l) (t junk : List Byte) (x : Byte)
    (he : t = (ls.map (· ++ [ch '\n'])).flatten) (ht : t.length + 1 < 2^64) (sec key : SP) (s k : List Byte)
    (hsec : Holds sec s) (hs : s.length + 2 < 2^64) (hkey : Holds key k) :
    ∃ r, lookup ⟨t ++ x :: junk, t.length⟩ (fun _ => true) sec key = .ok r ∧ Found (lineValue ls s k) r := by
  obtain ⟨pcs, r, h1, h2, h3, h4, h5⟩ := ini_lookup_text t junk x ht sec key s k hsec hs hkey
  have : pcs = ls ++ [[]] := by
    refine Stringptr.join_inj h2 (by simp) h3 ?_ (h1.trans (he.trans (Stringptr.lines_join ls)))
    intro p hp
    rcases List.mem_append.1 hp with hp | hp
    · exact hn p hp
    · simp at hp; simp [hp]
  rw [this, lineValue_nil] at h5
  exact ⟨r, h4, h5⟩

/-- C146. The text of every clean file gives back its values: for every section name and every key without `=`, the
    value of the first entry with that key in the first section of that name, and NULL if there is none. -/
theorem ini_lookup (ini : Ini) (hc : Clean ini) (junk : List Byte) (x : Byte) (ht : (text ini).length + 1 < 2^64)
    (sec key : SP) (s k : List Byte) (hsec : Holds sec s) (hs : s.length + 2 < 2^64) (hkey : Holds key k)
    (hk : ch '=' ∉ k) :
    ∃ r, lookup ⟨text ini ++ x :: junk, (text ini).length⟩ (fun _ => true) sec key = .ok r ∧
      Found (value ini s k) r := by
  obtain ⟨r, h1, h2⟩ := ini_lookup_lines (lines ini) (lines_no_lf hc) (text ini) junk x rfl ht sec key s k hsec hs hkey
  refine ⟨r, h1, ?_⟩
  rw [← lineValue_nil, lineValue_clean hk s ini hc] at h2
  exact h2

/-- The file of examples/iniparser_test.c. -/
def iniSample : Ini :=
  [(bytes! "main", [(bytes! "foo", bytes! "bar"), (bytes! "bar", bytes! "baz")]),
   (bytes! "section1", [(bytes! "baz", bytes! "blah"), (bytes! "blah", bytes! "foo")])]

example : text iniSample = bytes! "[main]\nfoo=bar\nbar=baz\n[section1]\nbaz=blah\nblah=foo\n" := by decide
example : Clean iniSample := ⟨by decide, by decide, by decide⟩
example : value iniSample (bytes! "main") (bytes! "bar") = some (bytes! "baz") ∧
    value iniSample (bytes! "section1") (bytes! "blah") = some (bytes! "foo") ∧
    value iniSample (bytes! "section1") (bytes! "foo") = none := by decide

/-- C147. In a file with DOS line ends the sections and keys are found, but every value ends in CR. -/
theorem ini_crlf (ls : List (List Byte)) (hn : ∀ l ∈ ls, ch '\n' ∉ l) (t junk : List Byte) (x : Byte)
    (he : t = (ls.map (· ++ [ch '\r', ch '\n'])).flatten) (ht : t.length + 1 < 2^64) (sec key : SP) (s k : List Byte)
    (hsec : Holds sec s) (hs : s.length + 2 < 2^64) (hkey : Holds key k) :
    ∃ r, lookup ⟨t ++ x :: junk, t.length⟩ (fun _ => true) sec key = .ok r ∧
      Found ((lineValue ls s k).map (· ++ [ch '\r'])) r := by
  have he' : t = ((ls.map (· ++ [ch '\r'])).map (· ++ [ch '\n'])).flatten := by
    rw [he, List.map_map]
    congr 1
    apply List.map_congr_left
    intro l _
    simp
  obtain ⟨r, h1, h2⟩ := ini_lookup_lines (ls.map (· ++ [ch '\r'])) (by
    intro l hl hm
    obtain ⟨m, hm', rfl⟩ := List.mem_map.1 hl
    rcases List.mem_append.1 hm with hm | hm
    · exact hn m hm' hm
    · exact absurd (List.mem_singleton.1 hm) (by decide)) t junk x he' ht sec key s k hsec hs hkey
  rw [lineValue_cr] at h2
  exact ⟨r, h1, h2⟩

example : lineValue (lines iniSample) (bytes! "main") (bytes! "bar") = some (bytes! "baz") := by decide

/-- C147. A bracket in a section name: a file that starts with the section `a]b` answers for the section `a` with the
    values of `a]b`, whatever `a` contains. -/
theorem ini_name_with_bracket (a b : List Byte) (es : List (List Byte × List Byte)) (ini : Ini) (k : List Byte)
    (hes : ∀ e ∈ es, ch '=' ∉ e.1 ∧ e.1.head? ≠ some (ch '[')) (hk : ch '=' ∉ k) (e : List Byte × List Byte)
    (hf : es.find? (fun e => e.1 = k) = some e) :
    lineValue (lines ((a ++ ch ']' :: b, es) :: ini)) a k = some e.2 := by
  have hl : lines ((a ++ ch ']' :: b, es) :: ini) =
      (ch '[' :: (a ++ ch ']' :: b) ++ [ch ']']) :: (es.map entryLine ++ lines ini) := by
    unfold lines sectionLines; simp
  have hh : Header a (ch '[' :: (a ++ ch ']' :: b) ++ [ch ']']) := ⟨b ++ [ch ']'], by simp⟩
  rw [hl]
  unfold lineValue
  rw [List.dropWhile_cons_of_neg (by rw [decide_eq_true_eq]; exact fun h' => h' hh), List.tail_cons,
    takeWhile_section fun e he => (hes e he).2, List.findSome?_append, find_entries hk _ fun e he => (hes e he).1, hf]
  rfl

example : lineValue (lines [(bytes! "a]b", [(bytes! "k", bytes! "1")]), (bytes! "a", [(bytes! "k", bytes! "2")])])
    (bytes! "a") (bytes! "k") = some (bytes! "1") := by decide

/-- C147. A key with an equals sign is found where a shorter key has a value with one: an entry `k` with the value
    `v=w` answers for the key `k=v` with `w`. -/
theorem ini_key_with_equals (k v w : List Byte) : given (k ++ ch '=' :: v) (entryLine (k, v ++ ch '=' :: w)) = some w :=
  given_iff.2 (by unfold entryLine; simp)

/-- The whole file: the first entry of the section answers. -/
theorem ini_key_with_equals_lookup (s k v w : List Byte) (es : List (List Byte × List Byte)) (ini : Ini)
    (hk : k.head? ≠ some (ch '[')) :
    lineValue (lines ((s, (k, v ++ ch '=' :: w) :: es) :: ini)) s (k ++ ch '=' :: v) = some w := by
  have hl : lines ((s, (k, v ++ ch '=' :: w) :: es) :: ini) =
      (ch '[' :: s ++ [ch ']']) :: ([(k, v ++ ch '=' :: w)].map entryLine ++ (es.map entryLine ++ lines ini)) := by
    unfold lines sectionLines; simp
  have hh : Header s (ch '[' :: s ++ [ch ']']) := ⟨[], by simp⟩
  rw [hl]
  unfold lineValue
  rw [List.dropWhile_cons_of_neg (by rw [decide_eq_true_eq]; exact fun h' => h' hh), List.tail_cons,
    takeWhile_section (by simpa using hk), List.findSome?_append, List.map_singleton, List.findSome?_cons, ini_key_with_equals]
  rfl

example : lineValue (lines [(bytes! "s", [(bytes! "a", bytes! "b=c")])]) (bytes! "s") (bytes! "a=b") = some (bytes! "c") := by decide

end Ulz.Props

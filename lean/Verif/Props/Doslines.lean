import Verif.Proofs.Doslines
/-! # C243: lines without their ends -/
namespace Ulz.Props
open Ulz.Stringptr Ulz.Stringptr.Spec Ulz.Doslines Ulz.Doslines.Spec Ulz.Joinsplit

/-- **C243** Splitting any text at the line feeds and removing the line ends with `stringptr_chomp` gives every line without the carriage
    returns at its end, however many there are; every entry stays terminated. -/
theorem doslines_any (s junk : List Byte) (x : Byte) : ∃ pcs buf qs, lines ⟨s ++ x :: junk, s.length⟩ = .ok (buf, qs) ∧
    join [ch '\n'] pcs = s ∧ pcs ≠ [] ∧ (∀ p ∈ pcs, ch '\n' ∉ p) ∧ Slices buf qs (pcs.map strip) := by
  obtain ⟨pcs, buf, qs, h1, h2, h3, h4, h5⟩ := lines_spec s junk x
  exact ⟨pcs, buf, qs, h1, h3, h2, h4, h5⟩

example : lines ⟨bytes! "a\r\nb\nc\r\r" ++ [0], 8⟩ = .ok ([97, 0, 0, 98, 0, 99, 0, 0, 0], [(0, 1), (3, 1), (5, 1)]) := by decide +kernel

/-- **C243** So a list made into a text by `stringptrlist_tostring_dos` comes back, with one more, empty, entry, exactly if no entry contains
    a line feed or ends with a carriage return. -/
theorem doslines_dos_iff (f : Nat → Byte) (l : List SP) (ss : List (List Byte)) (h : HoldsAll l ss)
    (hs : (ss.map (· ++ [ch '\r', ch '\n'])).flatten.length + 17 < 2 ^ 64) :
    ∃ t buf qs, tostring_dos (some f) l = .ok (some t) ∧ lines t = .ok (buf, qs) ∧
      (Slices buf qs (ss ++ [[]]) ↔ ∀ s ∈ ss, ch '\n' ∉ s ∧ s.getLast? ≠ some (ch '\r')) := by
  obtain ⟨pcs, buf, qs, h1, h2, h3, h4, h5⟩ := lines_spec (ss.map (· ++ [ch '\r', ch '\n'])).flatten [] 0
  refine ⟨_, buf, qs, stringptrlist_tostring_dos_correct (some f) l ss h hs, h1, ?_⟩
  rw [← lines_ends [ch '\r'] (.inr rfl) ss h2 h3 h4]
  exact ⟨fun g => slices_unique h5 g, fun g => g ▸ h5⟩

/-- **C243** and the same for `stringptrlist_tostring`. -/
theorem doslines_unix_iff (f : Nat → Byte) (l : List SP) (ss : List (List Byte)) (h : HoldsAll l ss)
    (hs : (ss.map (· ++ [ch '\n'])).flatten.length + 17 < 2 ^ 64) :
    ∃ t buf qs, tostring (some f) l = .ok (some t) ∧ lines t = .ok (buf, qs) ∧
      (Slices buf qs (ss ++ [[]]) ↔ ∀ s ∈ ss, ch '\n' ∉ s ∧ s.getLast? ≠ some (ch '\r')) := by
  obtain ⟨pcs, buf, qs, h1, h2, h3, h4, h5⟩ := lines_spec (ss.map (· ++ [ch '\n'])).flatten [] 0
  refine ⟨_, buf, qs, stringptrlist_tostring_correct (some f) l ss h hs, h1, ?_⟩
  rw [← lines_ends [] (.inl rfl) ss h2 h3 h4]
  exact ⟨fun g => slices_unique h5 g, fun g => g ▸ h5⟩

example : ∃ t buf qs, tostring_dos (some fun _ => 7) [⟨bytes! "a\rb", 3⟩, ⟨[], 0⟩] = .ok (some t) ∧ lines t = .ok (buf, qs) ∧
    Slices buf qs ([bytes! "a\rb", []] ++ [[]]) := by
  obtain ⟨t, buf, qs, h1, h2, h3⟩ := doslines_dos_iff (fun _ => 7) [⟨bytes! "a\rb", 3⟩, ⟨[], 0⟩] [bytes! "a\rb", []]
    (.cons ⟨rfl, [], rfl⟩ (.cons ⟨rfl, [], rfl⟩ .nil)) (by decide)
  exact ⟨t, buf, qs, h1, h2, h3.2 (by decide)⟩

example : ∃ t buf qs, tostring (some fun _ => 7) [⟨bytes! "a\r", 2⟩] = .ok (some t) ∧ lines t = .ok (buf, qs) ∧
    ¬Slices buf qs ([bytes! "a\r"] ++ [[]]) := by
  obtain ⟨t, buf, qs, h1, h2, h3⟩ := doslines_unix_iff (fun _ => 7) [⟨bytes! "a\r", 2⟩] [bytes! "a\r"]
    (.cons ⟨rfl, [], rfl⟩ .nil) (by decide)
  exact ⟨t, buf, qs, h1, h2, fun g => absurd (h3.1 g) (by decide)⟩

end Ulz.Props

import Verif.Proofs.Rotate
/-! C221: reading a file by lines while it is changed. -/
namespace Ulz.Props
open Ulz.Rotate Ulz.Rotate.Spec
open Ulz.Follow (Out St)
open Ulz.Follow.Spec (enc)
open Ulz.Fileparser (openFile)

/-- C221: whatever is done to the file, the results are those of `serve` for what the file has behind the place where the reader is. -/
theorem rotate_exact (es : List Rotate.Ev) (s : St) (hfd : s.p.file ≠ 0) (hb : 0 < s.buf.length) (hsync : s.p.fpos = s.f.off) :
    ∃ s', Rotate.run s es = .ok (s', serveAll s.buf.length s.f.data s.f.off 0 es) := by
  obtain ⟨s', h, _⟩ := run_exact es s hfd hb 0 (by omega)
  exact ⟨s', h⟩

/-- C221: the reader never sees a change before its place: histories that differ only there give the same results. -/
theorem rotate_blind (es es' : List Rotate.Ev) (s : St) (hfd : s.p.file ≠ 0) (hb : 0 < s.buf.length) (hsync : s.p.fpos = s.f.off)
    (h : Same s.f.off es es') : ∃ s1 s2 os, Rotate.run s es = .ok (s1, os) ∧ Rotate.run s es' = .ok (s2, os) := by
  obtain ⟨s1, h1⟩ := rotate_exact es s hfd hb hsync
  obtain ⟨s2, h2⟩ := rotate_exact es' s hfd hb hsync
  refine ⟨s1, s2, _, h1, ?_⟩
  rw [h2, serveAll_same _ h s.f.data s.f.data s.f.off 0 (Nat.le_refl _) rfl]

/-- C221: after any history a call returns -2 exactly if the file now has no more bytes than the place where the reader is. -/
theorem rotate_eof (es : List Rotate.Ev) (s : St) (hfd : s.p.file ≠ 0) (hb : 0 < s.buf.length) (hsync : s.p.fpos = s.f.off) :
    ∃ s' os s'' o, Rotate.run s es = .ok (s', os) ∧ Rotate.run s' [.read] = .ok (s'', [o]) ∧ (o = .code (-2) ↔ s'.f.data.length ≤ s'.f.off) := by
  obtain ⟨s', h, h1, h2, lost, h3⟩ := run_exact es s hfd hb 0 (by omega)
  obtain ⟨s'', k, _⟩ := run_exact [.read] s' h1 h2 lost h3
  refine ⟨s', _, s'', _, h, k, ?_⟩
  rw [serve_eof, List.drop_eq_nil_iff]

/-- C221: a reader that has read all lines of a file that is then replaced goes on at the same place of the new text. -/
theorem rotate_replaced (ls : List (List Byte)) (c : List Byte) (fd : Int) (hfd : fd ≠ 0) (uninit buf : List Byte) (len : Nat) (hb : 0 < buf.length)
    (h : ∀ l ∈ ls, ch '\n' ∉ l ∧ l.length < buf.length) (es : List Rotate.Ev) :
    ∃ s, Rotate.run ⟨(openFile (enc ls) fd uninit len).1, (openFile (enc ls) fd uninit len).2, buf⟩
        (List.replicate ls.length .read ++ .change c :: es) =
      .ok (s, ls.map .line ++ serveAll buf.length c (enc ls).length 0 es) := by
  obtain ⟨s, hs⟩ := rotate_exact (List.replicate ls.length .read ++ .change c :: es)
    ⟨(openFile (enc ls) fd uninit len).1, (openFile (enc ls) fd uninit len).2, buf⟩ hfd hb rfl
  refine ⟨s, ?_⟩
  rw [hs]
  have := serveAll_lines buf.length ls [] [] (.change c :: es) h
  simp only [List.append_nil, List.nil_append, List.length_nil] at this
  show Except.ok (s, serveAll buf.length (enc ls) 0 0 _) = _
  rw [this]
  rfl

/-- C221: so a log that starts anew is not seen until it is longer than the old one, -/
theorem rotate_shorter (ls : List (List Byte)) (c : List Byte) (fd : Int) (hfd : fd ≠ 0) (uninit buf : List Byte) (len : Nat) (hb : 0 < buf.length)
    (h : ∀ l ∈ ls, ch '\n' ∉ l ∧ l.length < buf.length) (hc : c.length ≤ (enc ls).length) (k : Nat) :
    ∃ s, Rotate.run ⟨(openFile (enc ls) fd uninit len).1, (openFile (enc ls) fd uninit len).2, buf⟩
        (List.replicate ls.length .read ++ .change c :: List.replicate k .read) =
      .ok (s, ls.map .line ++ List.replicate k (.code (-2))) := by
  obtain ⟨s, hs⟩ := rotate_replaced ls c fd hfd uninit buf len hb h (List.replicate k .read)
  rw [serveAll_end _ _ _ _ hc] at hs
  exact ⟨s, hs⟩

/-- C221: and then from the middle of a line: the reader gets what the line around the old end has behind it, and the lines after that. -/
theorem rotate_longer (ls new : List (List Byte)) (a b : List Byte) (fd : Int) (hfd : fd ≠ 0) (uninit buf : List Byte) (len : Nat) (hb : 0 < buf.length)
    (h : ∀ l ∈ ls, ch '\n' ∉ l ∧ l.length < buf.length) (ha : a.length = (enc ls).length) (hbl : ch '\n' ∉ b ∧ b.length < buf.length)
    (hn : ∀ l ∈ new, ch '\n' ∉ l ∧ l.length < buf.length) :
    ∃ s, Rotate.run ⟨(openFile (enc ls) fd uninit len).1, (openFile (enc ls) fd uninit len).2, buf⟩
        (List.replicate ls.length .read ++ .change (a ++ enc (b :: new)) :: List.replicate (new.length + 1) .read) =
      .ok (s, ls.map .line ++ .line b :: new.map .line) := by
  obtain ⟨s, hs⟩ := rotate_replaced ls (a ++ enc (b :: new)) fd hfd uninit buf len hb h (List.replicate (new.length + 1) .read)
  have hall : ∀ l ∈ b :: new, ch '\n' ∉ l ∧ l.length < buf.length := by
    intro l hl
    rcases List.mem_cons.1 hl with rfl | hl
    · exact hbl
    · exact hn l hl
  have := serveAll_lines buf.length (b :: new) a [] [] hall
  simp only [List.append_nil, List.length_cons] at this
  rw [← ha, this] at hs
  refine ⟨s, ?_⟩
  rw [hs]
  simp [serveAll]

/-! A log of two lines, replaced by one line; by a longer text; by the same with a line added. -/
example : ∀ l ∈ [bytes! "one", bytes! "two"], ch '\n' ∉ l ∧ l.length < 16 := by decide
example : ∃ s, Rotate.run ⟨(openFile (bytes! "one\ntwo\n") 3 [] 0).1, (openFile (bytes! "one\ntwo\n") 3 [] 0).2, List.replicate 16 7⟩
    [.read, .read, .change (bytes! "new\n"), .read, .change (bytes! "new\nlines\nhere\n"), .read, .read] =
    .ok (s, [.line (bytes! "one"), .line (bytes! "two"), .code (-2), .line (bytes! "s"), .line (bytes! "here")]) := ⟨_, rfl⟩
example : (bytes! "new\n").length ≤ (enc [bytes! "one", bytes! "two"]).length := by decide
example : (bytes! "new\nline").length = (enc [bytes! "one", bytes! "two"]).length := by decide
example : Same 4 [.change (bytes! "one\ntwo\n"), .read] [.change (bytes! "xxx\ntwo\n"), .read] := .change rfl (.read .nil)

end Ulz.Props

import Verif.Proofs.Fileparser
/-! Properties C54 to C56: fileparser, and string lists in files. -/
namespace Ulz.Props
open Ulz.Fileparser Ulz.Fileparser.Spec
open Ulz.Stringptr (SP)
open Ulz.Stringptr.Spec (Holds HoldsAll)

/-- Every file is a sequence of lines with a line feed and one last, possibly empty, text without. -/
theorem content_exists (data : List Byte) : ∃ (full : List (List Byte)) (last : List Byte), Content data full last := lines_exist data

/-- C55: one call of `fileparser_readline` with a buffer of `bufsize` bytes, for every file and every position.
    1. At the end of the file it returns -2 and nothing changes.
    2. If the next line and its line feed fit the buffer, it returns 0, the buffer holds the line and a terminator, and
       the position is behind the line feed; otherwise it returns -3 and the position is unchanged.
    3. If the rest of the file is a line without line feed, shorter than the buffer, it returns 0, the buffer holds the
       line and a terminator, and the position is at the end of the file; otherwise it returns -3 and the position is
       unchanged. -/
theorem readline_userbuf_correct (f : Fd) (p : FP) (buf : List Byte) (hfd : p.file ≠ 0) (hsync : p.fpos = f.off) (hb : 0 < buf.length) :
    (f.data.drop f.off = [] → readline_userbuf f p buf buf.length = .ok (f, p, buf, -2)) ∧
    (∀ l m, f.data.drop f.off = l ++ ch '\n' :: m → ch '\n' ∉ l →
      ∃ f' p' buf' r, readline_userbuf f p buf buf.length = .ok (f', p', buf', r) ∧ f'.data = f.data ∧ p'.file = p.file ∧
        buf'.length = buf.length ∧ p'.fpos = f'.off ∧
        if l.length + 1 ≤ buf.length then r = 0 ∧ l ++ [0] <+: buf' ∧ p'.len = l.length ∧ f'.off = f.off + l.length + 1
        else r = -3 ∧ f'.off = f.off) ∧
    (∀ l, f.data.drop f.off = l → ch '\n' ∉ l → l ≠ [] →
      ∃ f' p' buf' r, readline_userbuf f p buf buf.length = .ok (f', p', buf', r) ∧ f'.data = f.data ∧ p'.file = p.file ∧
        buf'.length = buf.length ∧
        if l.length + 1 ≤ buf.length then r = 0 ∧ l ++ [0] <+: buf' ∧ p'.len = l.length ∧ f'.off = f.off + l.length
        else r = -3 ∧ f'.off = f.off ∧ p'.fpos = f.off) := by
  refine ⟨fun h => rl_eof hfd h, fun l m h hl => ?_, fun l h hl hn => ?_⟩
  · by_cases hs : l.length < buf.length
    · obtain ⟨J, e1, e2⟩ := rl_line hfd h hl hs (Nat.le_refl _)
      exact ⟨_, _, _, _, e1, rfl, rfl, e2, rfl, by rw [if_pos (by omega)]; exact ⟨rfl, ⟨J, by simp⟩, rfl, by simp only; omega⟩⟩
    · refine ⟨_, _, _, _, rl_long hfd hb (by rw [h, List.length_append]; omega) ?_ (Nat.le_refl _), rfl, rfl, ?_, rfl, ?_⟩
      · rw [h, List.take_append_of_le_length (by omega)]
        exact fun hh => hl (List.mem_of_mem_take hh)
      · rw [h, List.length_append, List.length_take, List.length_drop, List.length_append]; omega
      · rw [if_neg (by omega)]; exact ⟨rfl, hsync⟩
  · by_cases hs : l.length < buf.length
    · obtain ⟨J, e1, e2⟩ := rl_last (p := p) hfd h hl hn hs (Nat.le_refl _)
      exact ⟨_, _, _, _, e1, rfl, rfl, e2, by rw [if_pos (by omega)]; exact ⟨rfl, ⟨J, by simp⟩, rfl, rfl⟩⟩
    · refine ⟨_, _, _, _, rl_long hfd hb (by rw [h]; omega) ?_ (Nat.le_refl _), rfl, rfl, ?_, ?_⟩
      · rw [h]; exact fun hh => hl (List.mem_of_mem_take hh)
      · rw [h, List.length_append, List.length_take, List.length_drop]; omega
      · rw [if_neg (by omega)]; exact ⟨rfl, hsync, hsync⟩

example : ∃ f' p' buf', readline_userbuf ⟨bytes! "ab\ncd", 0⟩ ⟨0, 0, [], 3⟩ (List.replicate 4 7) 4 =
    .ok (f', p', buf', 0) ∧ bytes! "ab" ++ [0] <+: buf' := by
  obtain ⟨f', p', buf', r, h1, _, _, _, _, h2⟩ := (readline_userbuf_correct ⟨bytes! "ab\ncd", 0⟩ ⟨0, 0, [], 3⟩ (List.replicate 4 7)
    (by decide) rfl (by decide)).2.1 (bytes! "ab") (bytes! "cd") (by decide) (by decide)
  rw [if_pos (by decide)] at h2
  exact ⟨f', p', buf', h2.1 ▸ h1, h2.2.1⟩

/-- C55: the library's own buffer gives the same results with 1024 bytes. -/
theorem readline_correct (f f' : Fd) (p p' : FP) (buf : List Byte) (r : Int) (hb : p.buf.length = 1024)
    (h : readline_userbuf f p p.buf p.buf.length = .ok (f', p', buf, r)) :
    readline f p = .ok (f', { p' with buf := buf }, r) := by
  unfold readline
  rw [show BUFSIZE = p.buf.length by rw [hb]; rfl, h]; rfl

example (b : List Byte) (hb : b.length = 1024) : ∃ f' p', readline ⟨bytes! "ab\ncd", 0⟩ ⟨0, 0, b, 3⟩ = .ok (f', p', 0) := by
  obtain ⟨f', p', buf', r, h1, _, _, h3, _, h2⟩ := (readline_userbuf_correct ⟨bytes! "ab\ncd", 0⟩ ⟨0, 0, b, 3⟩
    b (show (3 : Int) ≠ 0 by decide) rfl (by omega)).2.1 (bytes! "ab") (bytes! "cd") (by decide) (by decide)
  rw [if_pos (by rw [hb]; decide)] at h2
  exact ⟨f', _, readline_correct _ _ _ _ _ _ hb (h2.1 ▸ h1)⟩

/-- C55: reading a freshly opened file line by line delivers exactly its lines, in order, and then -2, if every line
    with its line feed fits the buffer. -/
theorem readline_enumerates (data : List Byte) (full : List (List Byte)) (last : List Byte) (h : Content data full last)
    (fd : Int) (hfd : fd ≠ 0) (uninit : List Byte) (len : Nat) (buf : List Byte)
    (hs : ∀ l ∈ linesOf full last, l.length + 1 ≤ buf.length) (h0 : 0 < buf.length) :
    readAll buf.length (data.length + 2) (openFile data fd uninit len).1 (openFile data fd uninit len).2 buf =
      .ok (linesOf full last, -2) := by
  refine readAll_spec full last _ _ _ _ (content_at h hfd _ _) ?_ ?_ rfl ?_
  · intro l hl
    have := hs l (List.mem_append.2 (Or.inl hl))
    omega
  · by_cases hz : last = []
    · rw [hz]; exact h0
    · have := hs last (List.mem_append.2 (Or.inr (by rw [if_neg hz]; simp)))
      omega
  · have := content_len h
    omega

example : Content (bytes! "ab\n\ncd") [bytes! "ab", []] (bytes! "cd") ∧ linesOf [bytes! "ab", []] (bytes! "cd") = [bytes! "ab", [], bytes! "cd"] :=
  ⟨⟨by decide, by decide, by decide⟩, by decide⟩

/-- C55: a parser whose descriptor is 0 - what `open` may well return - reads nothing. -/
theorem readline_fd0 (f : Fd) (p : FP) (buf : List Byte) (n : Nat) (h : p.file = 0) :
    readline_userbuf f p buf n = .ok (f, p, buf, -1) := by
  unfold readline_userbuf
  rw [if_pos h]; rfl

/-- C56: `fileparser_getnextlinelength` for every file and position: a line with a line feed of any length is measured
    and the position kept; so is a last line without line feed, unless its length is a multiple of 1024 (0: end of file):
    then the result is -1, and the position is the end of the file. -/
theorem getnextlinelength_correct (f : Fd) (p : FP) (hfd : p.file ≠ 0) (hsync : p.fpos = f.off) (hb : p.buf.length = 1024) :
    (∀ l m, f.data.drop f.off = l ++ ch '\n' :: m → ch '\n' ∉ l →
      ∃ f' p', getnextlinelength f p = .ok (f', p', (l.length : Int)) ∧ f' = f ∧ p'.fpos = p.fpos ∧ p'.file = p.file) ∧
    (∀ l, f.data.drop f.off = l → ch '\n' ∉ l → l.length % 1024 ≠ 0 →
      ∃ f' p', getnextlinelength f p = .ok (f', p', (l.length : Int)) ∧ f' = f ∧ p'.fpos = p.fpos ∧ p'.file = p.file) ∧
    (∀ l, f.data.drop f.off = l → ch '\n' ∉ l → l.length % 1024 = 0 →
      ∃ f' p', getnextlinelength f p = .ok (f', p', -1) ∧ f'.data = f.data ∧ f'.off = f.off + l.length ∧ p'.fpos = f'.off ∧
        p'.file = p.file) := by
  obtain ⟨data, off⟩ := f
  simp only at hsync
  subst hsync
  have hd : (data.drop p.fpos).length ≤ data.length := by rw [List.length_drop]; omega
  refine ⟨fun l m h hl => ?_, fun l h hl hm => ?_, fun l h hl hm => ?_⟩
  · simp only at h
    have : l.length ≤ data.length := by
      rw [h, List.length_append] at hd; omega
    obtain ⟨f', p', res', e1, e2, e3, _, e4⟩ := lenLoop_line (data.length + 1) p 0 l hfd hb h hl (by omega)
    unfold getnextlinelength
    simp only
    rw [e1, ok_bind]
    simp only
    rw [if_neg (by decide)]
    refine ⟨seek f' p.fpos, { p' with fpos := p.fpos }, ?_, ?_, ?_, ?_⟩
    · rw [show l.length = res' + p'.len by omega]; rfl
    · rw [← e2]; rfl
    · rfl
    · exact e3
  · simp only at h
    obtain ⟨f', p', res', ret, e1, e2, e3, _, e4, _⟩ := lenLoop_last (data.length + 1) p 0 l hfd hb h hl (by rw [← h]; omega)
    obtain ⟨rfl, e4⟩ := e4 hm
    unfold getnextlinelength
    simp only
    rw [e1, ok_bind]
    simp only
    rw [if_neg (by decide)]
    refine ⟨seek f' p.fpos, { p' with fpos := p.fpos }, ?_, ?_, ?_, ?_⟩
    · rw [show l.length = res' + p'.len by omega]; rfl
    · rw [← e2]; rfl
    · rfl
    · exact e3
  · simp only at h
    obtain ⟨f', p', res', ret, e1, e2, e3, _, _, e4⟩ := lenLoop_last (data.length + 1) p 0 l hfd hb h hl (by rw [← h]; omega)
    obtain ⟨rfl, e4, e5⟩ := e4 hm
    unfold getnextlinelength
    simp only
    rw [e1, ok_bind]
    simp only
    rw [if_pos (by decide)]
    exact ⟨_, _, rfl, e2, e5, by rw [e4, e5], e3⟩

example : ∃ f' p', getnextlinelength ⟨List.replicate 5000 7 ++ ch '\n' :: [1], 0⟩ ⟨0, 0, List.replicate 1024 0, 3⟩ = .ok (f', p', 5000) ∧
    p'.fpos = 0 := by
  obtain ⟨f', p', h, _, h2, _⟩ := (getnextlinelength_correct ⟨List.replicate 5000 7 ++ ch '\n' :: [1], 0⟩ ⟨0, 0, List.replicate 1024 0, 3⟩
    (by decide) rfl (List.length_replicate ..)).1 (List.replicate 5000 7) [1] rfl (fun h => absurd (List.eq_of_mem_replicate h) (by decide))
  rw [List.length_replicate] at h
  exact ⟨f', p', h, h2⟩

example : ∃ f' p', getnextlinelength ⟨List.replicate 2048 7, 0⟩ ⟨0, 0, List.replicate 1024 0, 3⟩ = .ok (f', p', -1) ∧ p'.fpos = 2048 := by
  obtain ⟨f', p', h, _, h2, h3, _⟩ := (getnextlinelength_correct ⟨List.replicate 2048 7, 0⟩ ⟨0, 0, List.replicate 1024 0, 3⟩
    (by decide) rfl (List.length_replicate ..)).2.2 (List.replicate 2048 7) rfl (fun h => absurd (List.eq_of_mem_replicate h) (by decide))
    (by rw [List.length_replicate])
  rw [List.length_replicate] at h2
  exact ⟨f', p', h, by rw [h3, h2]⟩

/-- C54: `stringptrlist_tofile` writes every entry followed by a line feed. -/
theorem tofile_correct (l : List SP) (ss : List (List Byte)) (h : HoldsAll l ss) :
    tofile l = .ok ((ss.map (· ++ [ch '\n'])).flatten, 1) := by
  unfold tofile
  rw [tofileLoop_spec l ss [] h]; rfl

/-- C54: `stringptrlist_fromfile` appends to the list copies of the lines of the file, up to the first line that is empty
    or has 1024 bytes or more. It stops early, and returns 0, exactly when an allocation for one of them fails. -/
theorem fromfile_correct (mem : Nat → Alloc) (grow : Nat → Bool) (data uninit : List Byte) (fd : Int) (len : Nat) (L : List SP)
    (old : List (List Byte)) (hL : HoldsAll L old) (full : List (List Byte)) (last : List Byte) (h : Content data full last)
    (hfd : fd ≠ 0) (hb : uninit.length = 1024) :
    ∃ n L' r, fromfile mem grow data fd uninit len L = .ok (L', r) ∧
      HoldsAll L' (old ++ ((linesOf full last).takeWhile Taken).take n) ∧
      (∀ i, i < n → mem i ≠ none ∧ grow i = true) ∧
      ((r = 1 ∧ n = ((linesOf full last).takeWhile Taken).length) ∨
        (r = 0 ∧ n < ((linesOf full last).takeWhile Taken).length ∧ ¬(mem n ≠ none ∧ grow n = true))) := by
  obtain ⟨n, h1, h2, h3, h4⟩ := fromfile_spec (mem := mem) (grow := grow) (len := len) L h hfd hb
  refine ⟨n, _, _, h4, ?_, h2, ?_⟩
  · clear h4
    induction hL with
    | nil => exact holdsAll_map _
    | cons x _ ih => exact .cons x ih
  · by_cases hn : n = ((linesOf full last).takeWhile Taken).length
    · exact Or.inl ⟨by rw [if_pos hn], hn⟩
    · exact Or.inr ⟨by rw [if_neg hn], by omega, h3 (by omega)⟩

example : (linesOf [bytes! "ab", bytes! "c", [], bytes! "d"] []).takeWhile Taken = [bytes! "ab", bytes! "c"] := by decide

/-- C54: writing a list and reading it back, with enough memory, gives the same list exactly when no entry is empty,
    contains a line feed or is longer than 1023 bytes. -/
theorem file_roundtrip (mem : Nat → Alloc) (grow : Nat → Bool) (hmem : ∀ k, mem k ≠ none ∧ grow k = true) (uninit : List Byte)
    (fd : Int) (len : Nat) (hfd : fd ≠ 0) (hb : uninit.length = 1024) (l : List SP) (ss : List (List Byte)) (h : HoldsAll l ss) :
    ∃ data l', tofile l = .ok (data, 1) ∧ fromfile mem grow data fd uninit len [] = .ok (l', 1) ∧
      (HoldsAll l' ss ↔ ∀ s ∈ ss, s ≠ [] ∧ ch '\n' ∉ s ∧ s.length ≤ 1023) := by
  have key : ∀ full last, Content ((ss.map (· ++ [ch '\n'])).flatten) full last →
      fromfile mem grow ((ss.map (· ++ [ch '\n'])).flatten) fd uninit len [] =
        .ok (((linesOf full last).takeWhile Taken).map fun s => ⟨s ++ [0], s.length⟩, 1) := by
    intro full last hc
    obtain ⟨n, h1, _, h3, h4⟩ := fromfile_spec (mem := mem) (grow := grow) (len := len) [] hc hfd hb
    have hn : n = ((linesOf full last).takeWhile Taken).length := by
      by_cases hn : n < ((linesOf full last).takeWhile Taken).length
      · exact absurd (hmem n) (h3 hn)
      · omega
    rw [h4, if_pos hn, hn, List.take_length, List.nil_append]
  obtain ⟨full, last, hc⟩ := lines_exist ((ss.map (· ++ [ch '\n'])).flatten)
  refine ⟨_, _, tofile_correct l ss h, key full last hc, fun hh s hs => ?_, fun hg => ?_⟩
  · rw [holdsAll_unique hh (holdsAll_map _)] at hs
    have ht := List.all_eq_true.1 List.all_takeWhile s hs
    simp only [Taken, decide_eq_true_eq] at ht
    exact ⟨ht.1, mem_linesOf hc ((List.takeWhile_prefix _).subset hs), by omega⟩
  · have hc' : Content ((ss.map (· ++ [ch '\n'])).flatten) ss [] := ⟨by simp, fun s hs => (hg s hs).2.1, by simp⟩
    have e := (key _ _ hc).symm.trans (key _ _ hc')
    injection e with e
    injection e with e
    rw [e]
    have : (linesOf ss []).takeWhile Taken = ss := by
      unfold linesOf
      rw [if_pos rfl, List.append_nil]
      exact takeWhile_all (fun s hs => by
        have := hg s hs
        simp only [Taken, decide_eq_true_eq]
        exact ⟨this.1, by omega⟩)
    rw [this]
    exact holdsAll_map ss

example : HoldsAll [⟨bytes! "ab", 2⟩, ⟨bytes! "cd", 1⟩] [bytes! "ab", bytes! "c"] :=
  .cons ⟨rfl, [], rfl⟩ (.cons ⟨rfl, bytes! "d", rfl⟩ .nil)

end Ulz.Props

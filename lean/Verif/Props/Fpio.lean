import Verif.Proofs.Fpio
/-! Properties C122 to C124: the line reader when `read` delivers less than it could, and when `read` or `lseek` fails. -/
namespace Ulz.Props
open Ulz.Fpio Ulz.Fpio.Spec
open Ulz.Fileparser (Fd FP openFile)
open Ulz.Fileparser.Spec (Content linesOf Taken)
open Ulz.Stringptr (SP)
open Ulz.Stringptr.Spec (Holds HoldsAll)

/-- C122: one call of `fileparser_readline_userbuf`, for every file, position, buffer and every answer `a` of the system.
    1. `read` fails: its errno is returned and nothing changes.
    2. The end of the file: -2, and nothing changes.
    3. The delivered bytes `x` hold a line feed, after the text `l`: the buffer holds `l` and a terminator. If `lseek` works the
       result is 0 and the position is behind the line feed; if it fails the result is its errno and the file stays behind `x`.
    4. The delivered bytes hold no line feed, but do not fill the buffer: the result is 0 and the buffer holds these bytes and a
       terminator - whether or not the line goes on in the file.
    5. They hold no line feed and fill the buffer: -3, or the errno of `lseek`.
    In every case the reads and writes stay in bounds. -/
theorem readline_any_system (a : Ans) (f : Fd) (p : FP) (buf : List Byte) (hfd : p.file ≠ 0) (hb : 0 < buf.length) :
    (∀ e, a.r = .fail e → readline_userbuf a f p buf buf.length = .ok (f, p, buf, (e : Int))) ∧
    (∀ k, a.r = .upTo k → f.data.drop f.off = [] → readline_userbuf a f p buf buf.length = .ok (f, p, buf, -2)) ∧
    (∀ k x, a.r = .upTo k → x = (f.data.drop f.off).take (min buf.length (k + 1)) → x ≠ [] →
      ∃ f' p' buf' r, readline_userbuf a f p buf buf.length = .ok (f', p', buf', r) ∧ f'.data = f.data ∧ p'.file = p.file ∧
        buf'.length = buf.length ∧
        (∀ l m, x = l ++ ch '\n' :: m → ch '\n' ∉ l →
          l ++ [0] <+: buf' ∧ p'.len = l.length ∧ p'.fpos = p.fpos + l.length + 1 ∧
          (a.s = none → r = 0 ∧ f'.off = p'.fpos) ∧ ∀ e, a.s = some e → r = (e : Int) ∧ f'.off = f.off + x.length) ∧
        (ch '\n' ∉ x → x.length < buf.length →
          r = 0 ∧ x ++ [0] <+: buf' ∧ p'.len = x.length ∧ f'.off = f.off + x.length ∧ p'.fpos = p.fpos + x.length + 1) ∧
        (ch '\n' ∉ x → x.length = buf.length →
          buf' = x ∧ p'.len = x.length ∧ p'.fpos = p.fpos ∧
          (a.s = none → r = -3 ∧ f'.off = p.fpos) ∧ ∀ e, a.s = some e → r = (e : Int) ∧ f'.off = f.off + x.length)) := by
  refine ⟨fun e h => io_fail hfd h, fun k h hr => io_eof hfd h hr, fun k x h hx h0 => ?_⟩
  have hx' : got f buf.length k = x := hx.symm
  have hlen := got_len (f := f) (n := buf.length) (k := k)
  rw [hx'] at hlen
  by_cases hlf : ch '\n' ∈ x
  · obtain ⟨l, m, e1, e2⟩ := Fileparser.lines_exist x |>.elim fun full h => h.elim fun last h => by
      match full, h with
      | [], h => exact absurd (by have := h.eq; simp at this; rwa [← this]) h.lf'
      | l :: full, h => exact (⟨l, _, by rw [h.eq]; simp; rfl, h.lf l (by simp)⟩ : ∃ l m, x = l ++ ch '\n' :: m ∧ ch '\n' ∉ l)
    obtain ⟨J, hJ, e⟩ := io_line (a := a) (p := p) hfd h (hx'.trans e1) e2 (Nat.le_refl buf.length)
    refine ⟨_, _, _, _, e, rfl, rfl, hJ, fun l' m' k1 k2 => ?_, fun h => absurd hlf h, fun h => absurd hlf h⟩
    have hll : l' = l := by
      have key : ∀ {l l' m m' : List Byte}, ch '\n' ∉ l → ch '\n' ∉ l' → l ++ ch '\n' :: m = l' ++ ch '\n' :: m' → l' = l := by
        intro l
        induction l with
        | nil =>
          intro l' m m' _ h2 h3
          match l', h2, h3 with
          | [], _, _ => rfl
          | c :: l', h2, h3 =>
            simp only [List.nil_append, List.cons_append, List.cons.injEq] at h3
            exact absurd (by rw [← h3.1]; simp) h2
        | cons c l ih =>
          intro l' m m' h1 h2 h3
          match l', h2, h3 with
          | [], _, h3 =>
            simp only [List.nil_append, List.cons_append, List.cons.injEq] at h3
            exact absurd (by rw [h3.1]; simp) h1
          | c' :: l', h2, h3 =>
            simp only [List.cons_append, List.cons.injEq] at h3
            rw [h3.1, ih (fun h => h1 (by simp [h])) (fun h => h2 (by simp [h])) h3.2]
      exact key e2 k2 (e1.symm.trans k1)
    subst hll
    refine ⟨⟨J, by simp⟩, rfl, by simp only; omega, fun hs => ?_, fun er hs => ?_⟩
    · rw [hs]; exact ⟨rfl, by simp⟩
    · rw [hs, hx']; exact ⟨rfl, by simp⟩
  · by_cases hs : x.length < buf.length
    · obtain ⟨J, hJ, e⟩ := io_piece (a := a) (p := p) hfd h hx' hlf h0 hs (Nat.le_refl buf.length)
      exact ⟨_, _, _, _, e, rfl, rfl, hJ, fun l m k1 _ => absurd (by rw [k1]; simp) hlf,
        fun _ _ => ⟨rfl, ⟨J, by simp⟩, rfl, rfl, by simp only; omega⟩, fun _ h => by omega⟩
    · have hs' : x.length = buf.length := by omega
      have e := io_long (a := a) (p := p) hfd h hx' hlf hb hs' (Nat.le_refl buf.length)
      refine ⟨_, _, _, _, e, rfl, rfl, by simp [hs'], fun l m k1 _ => absurd (by rw [k1]; simp) hlf, fun _ h => by omega,
        fun _ _ => ⟨by simp, hs'.symm, rfl, fun h => ?_, fun er h => ?_⟩⟩
      · rw [h]; exact ⟨rfl, by simp⟩
      · rw [h, hs']; exact ⟨rfl, by simp⟩

/-- A pipe: `lseek` fails with ESPIPE (29). The first line is in the buffer, but the call reports an error, and what was read
    behind the line is lost. -/
example : ∃ f' p' buf', readline_userbuf ⟨.upTo 99, some 29⟩ ⟨bytes! "ab\ncd", 0⟩ ⟨0, 0, [], 3⟩ (List.replicate 8 7) 8 =
    .ok (f', p', buf', 29) ∧ bytes! "ab" ++ [0] <+: buf' ∧ f'.off = 5 := by
  obtain ⟨f', p', buf', r, h1, _, _, _, h2, _⟩ := (readline_any_system ⟨.upTo 99, some 29⟩ ⟨bytes! "ab\ncd", 0⟩ ⟨0, 0, [], 3⟩
    (List.replicate 8 7) (by decide) (by decide)).2.2 99 (bytes! "ab\ncd") rfl (by decide) (by decide)
  obtain ⟨h3, _, _, _, h4⟩ := h2 (bytes! "ab") (bytes! "cd") (by decide) (by decide)
  obtain ⟨h5, h6⟩ := h4 29 rfl
  exact ⟨f', p', buf', by rw [show r = 29 from h5] at h1; exact h1, h3, h6⟩

/-- C122: if `read` delivers all it can and nothing fails, this is the behaviour of C55. -/
theorem readline_good_system (a : Ans) (f : Fd) (p : FP) (buf : List Byte) (n : Nat) (h : Good n a) :
    readline_userbuf a f p buf n = Fileparser.readline_userbuf f p buf n := io_good h

example : Good 1024 ⟨.upTo 4096, none⟩ := ⟨⟨4096, by decide, rfl⟩, rfl⟩

/-- C123: short reads lose data. If the system delivers a line in pieces - `xs`, none with a line feed, each shorter than the
    buffer, and then the rest `l` of the line with its line feed - then every piece is returned as a line of its own, with
    result 0, and the first bytes of the text behind the line, one for each piece in `xs`, are skipped: the next call reads from
    `rest.drop xs.length`. No call reports an error. -/
theorem readline_short_reads (f : Fd) (p : FP) (buf : List Byte) (hfd : p.file ≠ 0) (hsync : p.fpos = f.off) (xs : List (List Byte))
    (l rest : List Byte) (hd : f.data.drop f.off = xs.flatten ++ l ++ ch '\n' :: rest)
    (hxs : ∀ x ∈ xs, x ≠ [] ∧ ch '\n' ∉ x ∧ x.length < buf.length) (hl : ch '\n' ∉ l) (hln : l.length < buf.length) :
    ∃ f' p', run buf.length (xs.map (fun x => ⟨.upTo (x.length - 1), none⟩) ++ [⟨.upTo buf.length, none⟩]) f p buf =
        .ok (xs.map (·, 0) ++ [(l, 0)], f', p') ∧ p'.fpos = f'.off ∧ f'.data.drop f'.off = rest.drop xs.length := by
  obtain ⟨f', p', h1, h2, _, h4, h5⟩ := run_pieces (n := buf.length) hl hln xs f p buf hfd hxs (Nat.le_refl _) hd
  refine ⟨f', p', h1, h5, ?_⟩
  rw [h2, h4, hsync, show f.off + xs.flatten.length + l.length + 1 + xs.length =
    f.off + ((xs.flatten ++ l ++ [ch '\n']).length + xs.length) by simp; omega, ← List.drop_drop, ← List.drop_drop, hd]
  rw [List.append_cons (xs.flatten ++ l) (ch '\n') rest, List.drop_left]

/-- "hello world\nsecond\n" delivered as "hello ", "wor", "ld\n...": three lines, and the next line is "cond". -/
example : ∃ f' p', run 64 [⟨.upTo 5, none⟩, ⟨.upTo 2, none⟩, ⟨.upTo 64, none⟩] ⟨bytes! "hello world\nsecond\n", 0⟩ ⟨0, 0, [], 3⟩
      (List.replicate 64 7) = .ok ([(bytes! "hello ", 0), (bytes! "wor", 0), (bytes! "ld", 0)], f', p') ∧
    f'.data.drop f'.off = bytes! "cond\n" := by
  obtain ⟨f', p', h, _, h2⟩ := readline_short_reads ⟨bytes! "hello world\nsecond\n", 0⟩ ⟨0, 0, [], 3⟩ (List.replicate 64 7)
    (by decide) rfl [bytes! "hello ", bytes! "wor"] (bytes! "ld") (bytes! "second\n") (by decide) (by decide) (by decide) (by decide)
  exact ⟨f', p', h, h2⟩

/-- C124: `stringptrlist_fromfile` reports success although reading failed. With enough memory, if `read` fails in call `n` (or
    `lseek` does, on a line with a line feed), and not before, the result is 1 and the list has got only the first `n` of the
    lines it would have got. -/
theorem fromfile_swallows_errors (ans : Nat → Ans) (mem : Nat → Nat → Byte) (data uninit : List Byte) (fd : Int) (len : Nat)
    (L : List SP) (old : List (List Byte)) (hL : HoldsAll L old) (full : List (List Byte)) (last : List Byte)
    (h : Content data full last) (hfd : fd ≠ 0) (hb : uninit.length = 1024) (n : Nat) (hgood : ∀ i, i < n → Good 1024 (ans i))
    (hbad : (∃ e, e ≠ 0 ∧ (ans n).r = .fail e) ∨
      ((∃ k, 1024 ≤ k + 1 ∧ (ans n).r = .upTo k) ∧ (∃ e, e ≠ 0 ∧ (ans n).s = some e) ∧ n < full.length)) :
    ∃ L', fromfile ans mem data fd uninit len L = .ok (L', 1) ∧
      HoldsAll L' (old ++ ((linesOf full last).takeWhile Taken).take n) := by
  refine ⟨_, fromLoop_spec full last (data.length + 2) 0 n _ _ L (Fileparser.content_at h hfd uninit len) hb
    (by have := Fileparser.content_len h; omega) (by simpa using hgood) (by rw [Nat.zero_add]; exact hbad), ?_⟩
  induction hL with
  | nil => exact Fileparser.holdsAll_map _
  | cons x _ ih => exact .cons x ih

/-- A read error after the first of three lines. -/
example (uninit : List Byte) (hb : uninit.length = 1024) : ∃ L',
    fromfile (fun k => if k = 1 then ⟨.fail 5, none⟩ else ⟨.upTo 1023, none⟩) (fun _ _ => 0) (bytes! "ab\ncd\nef\n") 3 uninit 0 [] =
      .ok (L', 1) ∧ HoldsAll L' [bytes! "ab"] := by
  obtain ⟨L', h1, h2⟩ := fromfile_swallows_errors (fun k => if k = 1 then ⟨.fail 5, none⟩ else ⟨.upTo 1023, none⟩) (fun _ _ => 0)
    (bytes! "ab\ncd\nef\n") uninit 3 0 [] [] .nil [bytes! "ab", bytes! "cd", bytes! "ef"] [] ⟨by decide, by decide, by decide⟩
    (by decide) hb 1 (fun i hi => by
      obtain rfl : i = 0 := by omega
      exact ⟨⟨1023, by decide, rfl⟩, rfl⟩) (.inl ⟨5, by decide, rfl⟩)
  exact ⟨L', h1, h2⟩

end Ulz.Props

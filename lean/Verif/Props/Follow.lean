import Verif.Proofs.Follow
/-! C160, C161: reading a file that grows. -/
set_option linter.unusedVariables false
namespace Ulz.Props
open Ulz.Follow Ulz.Follow.Spec
open Ulz.Fileparser (Fd FP openFile)

/-- C160. If a writer appends only whole lines that fit the reader's buffer, in whatever portions and however the
    appends and the calls of the reader are interleaved, the reader gets exactly the lines written, in order, each once,
    and -2 whenever it has read all lines written so far. -/
theorem follow_whole_lines (es : List LEv) (fd : Int) (hfd : fd ≠ 0) (uninit buf : List Byte) (len : Nat) (hb : 0 < buf.length)
    (h : ∀ ls, LEv.lines ls ∈ es → ∀ l ∈ ls, ch '\n' ∉ l ∧ l.length < buf.length) :
    ∃ s, Follow.run ⟨(openFile [] fd uninit len).1, (openFile [] fd uninit len).2, buf⟩ (es.map LEv.ev) =
      .ok (s, queue [] es) := by
  obtain ⟨s, hs⟩ := run_exact (es.map LEv.ev) ⟨(openFile [] fd uninit len).1, (openFile [] fd uninit len).2, buf⟩ hfd hb 0 rfl
  refine ⟨s, hs.trans ?_⟩
  have := serveAll_lines (n := buf.length) es [] 0 [] (by simp) rfl (by simp) h
  exact congrArg (fun o => Except.ok (s, o)) this

/-- C161, the exact rule: for every file, every history of appends and calls and every buffer, the results are those of
    `serve`: a line that was read before its line feed was written is delivered as if it were complete, and for each of
    these one byte is skipped behind the next line feed. -/
theorem follow_exact (es : List Ev) (s : St) (hfd : s.p.file ≠ 0) (hb : 0 < s.buf.length) (hsync : s.p.fpos = s.f.off) :
    ∃ s', Follow.run s es = .ok (s', serveAll s.buf.length s.f.data s.f.off 0 es) :=
  run_exact es s hfd hb 0 (by omega)

/-- C161. A writer that writes a line in `k + 1` portions, the reader calling after each: the reader gets every portion
    as a line of its own, and of what follows the line the first `k` bytes are lost, whatever comes next. -/
theorem follow_loses_bytes (fd : Int) (hfd : fd ≠ 0) (uninit buf : List Byte) (len : Nat) (xs : List (List Byte))
    (y z : List Byte) (es : List Ev) (hb : 0 < buf.length)
    (hx : ∀ x ∈ xs, ch '\n' ∉ x ∧ x ≠ [] ∧ x.length < buf.length) (hy : ch '\n' ∉ y) (hyl : y.length < buf.length) :
    ∃ s, Follow.run ⟨(openFile [] fd uninit len).1, (openFile [] fd uninit len).2, buf⟩
        (xs.flatMap (fun x => [.append x, .read]) ++ (.append (y ++ ch '\n' :: z) :: .read :: es)) =
      .ok (s, xs.map Out.line ++ .line y ::
        serveAll buf.length (xs.flatten ++ y ++ ch '\n' :: z) ((xs.flatten ++ y).length + 1 + xs.length) 0 es) := by
  obtain ⟨s, hs⟩ := run_exact (xs.flatMap (fun x => [.append x, .read]) ++ (.append (y ++ ch '\n' :: z) :: .read :: es))
    ⟨(openFile [] fd uninit len).1, (openFile [] fd uninit len).2, buf⟩ hfd hb 0 rfl
  refine ⟨s, hs.trans ?_⟩
  have h1 := serveAll_parts (n := buf.length) xs [] 0 (.append (y ++ ch '\n' :: z) :: .read :: es) hx
  simp only [List.nil_append, List.length_nil, Nat.zero_add] at h1
  have h2 : serveAll buf.length (openFile [] fd uninit len).1.data (openFile [] fd uninit len).1.off 0
      (xs.flatMap (fun x => [.append x, .read]) ++ (.append (y ++ ch '\n' :: z) :: .read :: es)) =
      xs.map Out.line ++ .line y ::
        serveAll buf.length (xs.flatten ++ y ++ ch '\n' :: z) ((xs.flatten ++ y).length + 1 + xs.length) 0 es := by
    refine h1.trans ?_
    simp only [serveAll]
    rw [List.drop_left, serve_line hy hyl]
    simp [Nat.add_assoc]
  exact congrArg (fun o => Except.ok (s, o)) h2

/-- What is then left of the file: everything behind the line but for `k` bytes. -/
theorem follow_rest (A z : List Byte) (k : Nat) : (A ++ ch '\n' :: z).drop (A.length + 1 + k) = z.drop k := by
  rw [Nat.add_assoc, Nat.add_comm 1 k, ← List.drop_drop, List.drop_left, List.drop_succ_cons]

/-- "one" and "two" with calls between and in excess. -/
example : queue [] [.read, .lines [bytes! "one", bytes! "two"], .read, .lines [[]], .read, .read, .read] =
    [.code (-2), .line (bytes! "one"), .line (bytes! "two"), .line [], .code (-2)] := by decide

/-- "he" is read too early: "llo" comes as a second line, and the next line is "orld" instead of "world". -/
example : (Follow.run ⟨⟨[], 0⟩, ⟨0, 0, [], 3⟩, List.replicate 8 7⟩
      [.append (bytes! "he"), .read, .append (bytes! "llo\nworld\n"), .read, .read, .read]).map Prod.snd =
    .ok [.line (bytes! "he"), .line (bytes! "llo"), .line (bytes! "orld"), .code (-2)] := by decide +kernel

end Ulz.Props

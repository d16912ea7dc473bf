import Verif.Proofs.Misc
/-! C114–C116: descriptors of the file parser, op_printall, the stdio replacements. -/
namespace Ulz.Props
open Ulz.Misc Ulz.Output

/-- C114. A parser whose descriptor is `d`: `fileparser_close` returns 0 and closes `d` exactly if it is not 0; a second call
    returns 0 and closes nothing. NULL gives -1. -/
theorem fileparser_close_correct (fds : List Nat) (hn : fds.Nodup) (p : Fileparser.FP) (d : Nat) (hd : p.file = d) :
    (∃ fds' p', fp_close fds (some p) = (fds', some p', 0) ∧ (∀ f, f ∈ fds' ↔ f ∈ fds ∧ (f = d → d = 0)) ∧
      fp_close fds' (some p') = (fds', some p', 0)) ∧
    fp_close fds none = (fds, none, -1) := by
  refine ⟨?_, rfl⟩
  have hc : ∀ fds' q, fp_close fds' (some q) =
      (if q.file > 0 then fds'.erase q.file.toNat else fds', some { q with file := -1, fpos := 0, len := 0 }, 0) :=
    fun _ _ => rfl
  by_cases h0 : d = 0
  · refine ⟨fds, { p with file := -1, fpos := 0, len := 0 }, ?_, by simp [h0], by rw [hc]; simp⟩
    rw [hc, hd, h0]
    rfl
  · refine ⟨fds.erase d, { p with file := -1, fpos := 0, len := 0 }, ?_, ?_, by rw [hc]; simp⟩
    · rw [hc, hd, if_pos (by omega), Int.toNat_natCast]
    · intro f
      rw [hn.mem_erase_iff]
      constructor
      · rintro ⟨h1, h2⟩; exact ⟨h2, fun h => absurd h h1⟩
      · rintro ⟨h1, h2⟩; exact ⟨fun h => h0 (h2 h), h1⟩

example : fp_close [4, 0, 3] (some ⟨7, 1, [], 3⟩) = ([4, 0], some ⟨0, 0, [], -1⟩, 0) := by decide

/-- C114. Any number of times opening a file and closing it: afterwards the open descriptors are those open before, except that
    descriptor 0, if it was not open before, has been lost to the first one. -/
theorem fileparser_cycles (pick : List Nat → Nat) (hp : Spec.Lowest pick) (k : Nat) (fds : List Nat) (p : Fileparser.FP) :
    cycles pick k fds p = if 0 < k ∧ 0 ∉ fds then 0 :: fds else fds := cycles_spec hp k fds p

/-- The lowest number not in a list: one of the first `length + 1` numbers. -/
theorem lowest_exists : ∃ pick, Spec.Lowest pick := by
  have key : ∀ fds : List Nat, ∃ d, d ∉ fds ∧ ∀ e < d, e ∈ fds := by
    intro fds
    have hex : ∃ d, d ∉ fds := by
      refine ⟨fds.sum + 1, fun h => ?_⟩
      have hle : ∀ (l : List Nat) x, x ∈ l → x ≤ l.sum := by
        intro l
        induction l with
        | nil => intro x hx; cases hx
        | cons y l ih =>
          intro x hx
          rw [List.sum_cons]
          rcases List.mem_cons.1 hx with h | h
          · omega
          · have := ih x h; omega
      have := hle fds _ h
      omega
    obtain ⟨d, hd⟩ := hex
    induction d using Nat.strongRecOn with
    | _ d ih =>
      rcases Classical.em (∀ e < d, e ∈ fds) with h | h
      · exact ⟨d, hd, h⟩
      · obtain ⟨e, he⟩ := Classical.not_forall.1 h
        obtain ⟨h1, h2⟩ := Classical.not_imp.1 he
        exact ih e h1 h2
  exact ⟨fun fds => (key fds).choose, fun fds => (key fds).choose_spec⟩

/-- C114. While the descriptor is 0 no line can be read: every read reports the error -1. -/
theorem fileparser_descriptor_zero (f : Fileparser.Fd) (p : Fileparser.FP) (hp : p.file = 0) (buf : List Byte) (n : Nat) :
    Fileparser.readline f p = .ok (f, p, -1) ∧ Fileparser.readline_userbuf f p buf n = .ok (f, p, buf, -1) := by
  constructor
  · unfold Fileparser.readline Fileparser.readline_userbuf
    rw [if_pos hp]
    rfl
  · unfold Fileparser.readline_userbuf
    rw [if_pos hp]
    rfl

example : Fileparser.readline ⟨bytes! "line\n", 0⟩ ⟨0, 0, List.replicate 1024 0, 0⟩ =
    .ok (⟨bytes! "line\n", 0⟩, ⟨0, 0, List.replicate 1024 0, 0⟩, -1) := (fileparser_descriptor_zero _ _ rfl [] 0).1

/-- C115. `op_printall` prints every argument except the name of the program, in order, each followed by a newline. -/
theorem op_printall_correct (p : Optparser.Op) (as : List (List Byte)) (h : Optparser.Spec.Args p as) :
    op_printall p = .ok (Spec.lines as.tail) := by
  unfold op_printall
  rw [printLoop_spec h (p.argc + 1) 1 (by rw [h.1]; omega)]
  simp

example : op_printall ⟨3, [bytes! "prog" ++ [0], bytes! "-x" ++ [0], bytes! "a b" ++ [0]]⟩ = .ok (bytes! "-x\na b\n") := by
  decide +kernel

example : Optparser.Spec.Args ⟨2, [bytes! "prog" ++ [0], bytes! "-x" ++ [0]]⟩ [bytes! "prog", bytes! "-x"] := by
  refine ⟨rfl, ?_⟩
  intro i a h
  match i, h with
  | 0, h => cases h; exact ⟨by decide, [], rfl⟩
  | 1, h => cases h; exact ⟨by decide, [], rfl⟩

/-- C116. The replacement of `puts` prints the string without the newline that ISO C's `puts` adds: it never prints what
    `puts` would. -/
theorem stdio_puts (s junk : List Byte) (hs : 0 ∉ s) :
    Misc.puts (s ++ 0 :: junk) = .ok [(1, s)] ∧ Misc.puts (s ++ 0 :: junk) ≠ .ok (Spec.puts s) := by
  have : Misc.puts (s ++ 0 :: junk) = .ok [(1, s)] := by
    unfold Misc.puts
    rw [log_putc_spec hs]
    rfl
  refine ⟨this, ?_⟩
  rw [this]
  intro h
  injection h with h
  simp [Spec.puts] at h

example : Misc.puts (bytes! "hi" ++ [0]) = .ok [(1, bytes! "hi")] := (stdio_puts (bytes! "hi") [] (by decide)).1

/-- C116. The replacement of `perror` prints what ISO C's `perror` prints exactly if the string is neither NULL nor empty. -/
theorem stdio_perror (x : Option (List Byte)) (s : Option (List Byte)) (m j : List Byte) (hm : 0 ∉ m)
    (hx : x = none ∧ s = none ∨ ∃ t j, x = some (t ++ 0 :: j) ∧ s = some t ∧ 0 ∉ t) :
    ∃ r, Misc.perror x (m ++ 0 :: j) = .ok r ∧ (r = Spec.perror s m ↔ s ≠ none ∧ s ≠ some []) := by
  unfold Misc.perror
  rcases hx with ⟨rfl, rfl⟩ | ⟨t, j', rfl, rfl, ht⟩
  · rw [log_puterror_correct none [] m j (.inl ⟨rfl, rfl⟩) hm]
    refine ⟨_, rfl, ?_⟩
    simp [arrives, Spec.perror]
    intro h
    have := congrArg List.length h
    simp at this
    omega
  · rw [log_puterror_correct _ t m j (.inr ⟨j', rfl, ht⟩) hm]
    refine ⟨_, rfl, ?_⟩
    by_cases h0 : t = []
    · subst h0
      simp [arrives, Spec.perror]
      intro h
      have := congrArg List.length h
      simp at this
      omega
    · simp [arrives, Spec.perror, h0]

example : Misc.perror (some [0]) (bytes! "No such file" ++ [0]) = .ok [(2, bytes! ": No such file\n")] := by decide +kernel

/-- C116. The replacement of `fprintf`, for a format that yields the text `t`: for any argument other than the words `stdout` and
    `stderr` nothing is printed; for these the text (its first 4095 characters) arrives at descriptor 1 or 2 if the compiler
    gives equal string literals the same address, and is lost otherwise. -/
theorem stdio_fprintf (eq : List Byte → List Byte → Bool) (he : Spec.LitEq eq) (s junk : List Byte)
    (is : List Format.Spec.Item) (hp : Format.Spec.Parses s is false) (args : List Format.Arg) (t : List Byte)
    (ht : Format.Spec.render 0 is false args = .text t) (dest cbuf : List Byte) (hd : dest.length = 4096)
    (hc : cbuf.length = 32) :
    (∀ f, f ≠ bytes! "stdout" → f ≠ bytes! "stderr" → Misc.fprintf eq f dest cbuf (s ++ 0 :: junk) args = .ok []) ∧
    Misc.fprintf eq (bytes! "stdout") dest cbuf (s ++ 0 :: junk) args =
      .ok (if eq (bytes! "stdout") (bytes! "stdout") then [(1, t.take 4095)] else []) ∧
    Misc.fprintf eq (bytes! "stderr") dest cbuf (s ++ 0 :: junk) args =
      .ok (if eq (bytes! "stderr") (bytes! "stderr") then [(2, t.take 4095)] else []) := by
  have h := fprintf_correct s junk is hp args t ht dest cbuf hd hc
  have hne : eq (bytes! "stderr") (bytes! "stdout") = false := by
    cases h1 : eq (bytes! "stderr") (bytes! "stdout") with
    | false => rfl
    | true => exact absurd (he _ _ h1) (by decide)
  have hne2 : eq (bytes! "stdout") (bytes! "stderr") = false := by
    cases h1 : eq (bytes! "stdout") (bytes! "stderr") with
    | false => rfl
    | true => exact absurd (he _ _ h1) (by decide)
  unfold Misc.fprintf
  rw [h]
  simp only [ok_bind, pure_eq_ok]
  refine ⟨fun f h1 h2 => ?_, ?_, ?_⟩
  · have e1 : eq f (bytes! "stdout") = false := by
      cases h3 : eq f (bytes! "stdout") with
      | false => rfl
      | true => exact absurd (he _ _ h3) h1
    have e2 : eq f (bytes! "stderr") = false := by
      cases h3 : eq f (bytes! "stderr") with
      | false => rfl
      | true => exact absurd (he _ _ h3) h2
    simp only [streamFd, e1, e2, arrives, Bool.false_eq_true, if_false, if_true]
  · cases h3 : eq (bytes! "stdout") (bytes! "stdout") <;>
      simp only [streamFd, h3, hne2, arrives, Bool.false_eq_true, if_false, if_true] <;> rfl
  · cases h3 : eq (bytes! "stderr") (bytes! "stderr") <;>
      simp only [streamFd, h3, hne, arrives, Bool.false_eq_true, if_false, if_true] <;> rfl

/-- A compiler that merges equal literals and one that does not. -/
example : Spec.LitEq (fun a b => a == b) ∧ Spec.LitEq (fun _ _ => false) :=
  ⟨fun a b h => by simpa using h, fun a b h => by simp at h⟩

end Ulz.Props

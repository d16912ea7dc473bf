import Verif.Model.Linecat
import Verif.Proofs.Fpio
import Verif.Proofs.Hex
/-! Lemmas about the program that prints a file line by line. -/
namespace Ulz.Linecat
open Ulz.Fileparser (Fd FP openFile BUFSIZE At at_next)
open Ulz.Fileparser.Spec
open Ulz.Fpio (Ans readline readline_def got got_len io_fail io_eof io_line io_piece io_long good_readline)
open Ulz.Fpio.Spec (Good)

theorem cstr_split (l J : List Byte) : ∃ K, l ++ 0 :: J = cstr l ++ 0 :: K ∧ 0 ∉ cstr l := by
  induction l with
  | nil => exact ⟨J, rfl, by simp [cstr]⟩
  | cons c l ih =>
    by_cases hc : c = 0
    · exact ⟨l ++ 0 :: J, by simp [cstr, hc], by simp [cstr, hc]⟩
    · obtain ⟨K, h1, h2⟩ := ih
      refine ⟨K, ?_, ?_⟩
      · rw [List.cons_append, h1]
        unfold cstr
        rw [List.takeWhile_cons_of_pos (by simpa using hc)]; rfl
      · unfold cstr at h2 ⊢
        rw [List.takeWhile_cons_of_pos (by simpa using hc)]
        simp only [List.mem_cons, not_or]
        exact ⟨fun h => hc h.symm, h2⟩

theorem puts_spec (l J : List Byte) : puts (l ++ 0 :: J) = .ok (cstr l ++ [ch '\n']) := by
  obtain ⟨K, h1, h2⟩ := cstr_split l J
  rw [h1, puts, Hex.strlen_cstr _ _ h2, ok_bind, Fpio.rdN_front]
  rfl

theorem loop_stop {ans : Nat → Ans} {fuel k f p} {f' : Fd} {p' : FP} {r : Int} (h : readline (ans k) f p = .ok (f', p', r))
    (hr : r ≠ 0) : loop ans (fuel + 1) k f p = .ok [] := by
  rw [loop, h, ok_bind]
  simp only
  rw [if_neg hr]; rfl

theorem loop_go {ans : Nat → Ans} {fuel k f p} {f' : Fd} {p' : FP} {l J t : List Byte} (h : readline (ans k) f p = .ok (f', p', 0))
    (hb : p'.buf = l ++ 0 :: J) (ht : loop ans fuel (k + 1) f' p' = .ok t) :
    loop ans (fuel + 1) k f p = .ok (cstr l ++ [ch '\n'] ++ t) := by
  rw [loop, h, ok_bind]
  simp only
  rw [if_pos trivial, hb, puts_spec, ok_bind, ht]; rfl

/-- A line that is printed. -/
def Short (l : List Byte) : Bool := l.length < 1024

theorem loop_good {ans : Nat → Ans} (hg : ∀ k, Good 1024 (ans k)) : ∀ (full : List (List Byte)) (last : List Byte) fuel k f p,
    At f p full last → p.buf.length = 1024 → (f.data.drop f.off).length < fuel →
    loop ans fuel k f p = .ok (((linesOf full last).takeWhile Short).map (cstr · ++ [ch '\n'])).flatten := by
  intro full
  induction full with
  | nil =>
    intro last fuel k f p h hb hfu
    have hr : f.data.drop f.off = last := by rw [h.rest]; simp
    match fuel, hfu with
    | fuel + 1, hfu =>
      by_cases hz : last = []
      · subst hz
        rw [loop_stop (by rw [good_readline (hg k)]; exact Fileparser.readline_def _ _ (Fileparser.rl_eof h.file hr)) (by decide)]
        simp [linesOf]
      · by_cases hs : last.length < 1024
        · obtain ⟨J, e1, e2⟩ := Fileparser.rl_last (p := p) (buf := p.buf) (bufsize := BUFSIZE) h.file hr h.lf' hz hs (by show 1024 ≤ _; omega)
          have hpos := List.length_pos_iff.2 hz
          rw [hr] at hfu
          match fuel, hfu with
          | fuel + 1, hfu =>
            rw [loop_go (l := last) (J := J) (by rw [good_readline (hg k)]; exact Fileparser.readline_def _ _ e1) rfl
              (loop_stop (by
                rw [good_readline (hg _)]
                refine Fileparser.readline_def _ _ (Fileparser.rl_eof h.file ?_)
                simp only
                rw [← List.drop_drop, hr, List.drop_length]) (by decide))]
            simp [linesOf, hz, Short, hs]
          | 0, hfu => omega
        · have e := Fileparser.rl_long (p := p) (buf := p.buf) (bufsize := BUFSIZE) h.file (by decide) (f := f)
            (by rw [hr]; show 1024 ≤ _; omega) (by rw [hr]; exact fun hh => h.lf' (List.mem_of_mem_take hh)) (by show 1024 ≤ _; omega)
          rw [loop_stop (by rw [good_readline (hg k)]; exact Fileparser.readline_def _ _ e) (by decide)]
          simp [linesOf, hz, Short, hs]
  | cons l full ih =>
    intro last fuel k f p h hb hfu
    match fuel, hfu with
    | fuel + 1, hfu =>
      obtain ⟨hr, hn⟩ := at_next h
      have hll := h.lf l (by simp)
      by_cases hs : l.length < 1024
      · obtain ⟨J, e1, e2⟩ := Fileparser.rl_line (p := p) (buf := p.buf) (bufsize := BUFSIZE) h.file hr hll hs (by show 1024 ≤ _; omega)
        have hat := hn (l ++ 0 :: J) l.length
        rw [loop_go (l := l) (J := J) (by rw [good_readline (hg k)]; exact Fileparser.readline_def _ _ e1) rfl
          (ih last fuel (k + 1) _ _ hat (by simp only; omega) (by
            rw [hat.rest]
            rw [hr] at hfu
            simp only [List.length_append, List.length_cons] at hfu ⊢
            omega))]
        have : linesOf (l :: full) last = l :: linesOf full last := by simp [linesOf]
        rw [this, List.takeWhile_cons_of_pos (by simpa [Short] using hs)]
        simp
      · have e := Fileparser.rl_long (p := p) (buf := p.buf) (bufsize := BUFSIZE) h.file (by decide) (f := f)
          (by rw [hr, List.length_append]; show 1024 ≤ _; omega)
          (by rw [hr]; exact fun hh => hll (by rw [List.take_append_of_le_length (by show 1024 ≤ _; omega)] at hh; exact List.mem_of_mem_take hh))
          (by show 1024 ≤ _; omega)
        rw [loop_stop (by rw [good_readline (hg k)]; exact Fileparser.readline_def _ _ e) (by decide)]
        have : linesOf (l :: full) last = l :: linesOf full last := by simp [linesOf]
        rw [this, List.takeWhile_cons_of_neg (by simpa [Short] using hs)]
        rfl

/-- The first line feed. -/
theorem split_lf {x : List Byte} (h : ch '\n' ∈ x) : ∃ l m, x = l ++ ch '\n' :: m ∧ ch '\n' ∉ l := by
  obtain ⟨full, last, hc⟩ := Fileparser.lines_exist x
  match full, hc with
  | [], hc => exact absurd (by have := hc.eq; simp at this; rwa [← this]) hc.lf'
  | l :: full, hc => exact ⟨l, _, by rw [hc.eq]; simp; rfl, hc.lf l (by simp)⟩

theorem got_infix (f : Fd) (n k : Nat) : got f n k <:+: f.data :=
  ((List.take_prefix _ _).isInfix).trans (List.drop_suffix _ _).isInfix

/-- Any system: the loop ends, and prints pieces of the file. -/
theorem loop_any {ans : Nat → Ans} (he : ∀ k, (ans k).r ≠ .fail 0) (hs : ∀ k, (ans k).s ≠ some 0) (data : List Byte) : ∀ fuel k f p,
    f.data = data → p.file ≠ 0 → p.buf.length = 1024 → f.off ≤ p.fpos → (f.data.drop f.off).length < fuel →
    ∃ ts : List (List Byte), (∀ t ∈ ts, t <:+: data ∧ t.length < 1024 ∧ ch '\n' ∉ t) ∧
      loop ans fuel k f p = .ok (ts.map (cstr · ++ [ch '\n'])).flatten := by
  intro fuel
  induction fuel with
  | zero => intro k f p _ _ _ _ h; omega
  | succ fuel ih =>
    intro k f p hd hf hb hpos hfu
    have he := he k
    have hs := hs k
    cases hr : (ans k).r with
    | fail e =>
      refine ⟨[], by simp, ?_⟩
      rw [loop_stop (readline_def _ _ _ (io_fail hf hr)) (by intro h; apply he; rw [hr]; congr 1; omega)]; rfl
    | upTo j =>
      by_cases hz : f.data.drop f.off = []
      · exact ⟨[], by simp, by rw [loop_stop (readline_def _ _ _ (io_eof hf hr hz)) (by decide)]; rfl⟩
      · have hlen := got_len (f := f) (n := BUFSIZE) (k := j)
        have hinf := got_infix f BUFSIZE j
        have hz' := List.length_pos_iff.2 hz
        have hx0 : 0 < (got f BUFSIZE j).length := by
          rw [got, List.length_take]
          show 0 < min (min 1024 (j + 1)) _
          omega
        have hle : (got f BUFSIZE j).length ≤ (f.data.drop f.off).length := by
          rw [got, List.length_take]; omega
        rw [List.length_drop] at hle hfu hz'
        rw [hd] at hinf
        generalize hx : got f BUFSIZE j = x at hlen hinf hx0 hle
        have hlen : x.length ≤ 1024 := hlen
        by_cases hlf : ch '\n' ∈ x
        · obtain ⟨l, m, e1, e2⟩ := split_lf hlf
          obtain ⟨J, hJ, e⟩ := io_line (a := ans k) (p := p) (buf := p.buf) (n := BUFSIZE) hf hr (hx.trans e1) e2 (by show 1024 ≤ _; omega)
          cases hsk : (ans k).s with
          | some er =>
            refine ⟨[], by simp, ?_⟩
            rw [loop_stop (readline_def _ _ _ e) (by
              rw [hsk]; simp only [Option.getD_some]
              intro h; apply hs; rw [hsk]; congr 1; omega)]; rfl
          | none =>
            have hxl : l.length + 1 + m.length = x.length := by rw [e1]; simp; omega
            rw [hsk] at e
            simp only [if_true, Option.getD_none] at e
            obtain ⟨ts, h1, h2⟩ := ih (k + 1) ⟨f.data, p.fpos + (l.length + 1)⟩
              { p with fpos := p.fpos + (l.length + 1), len := l.length, buf := l ++ 0 :: J } hd hf (by simp only; omega)
              (Nat.le_refl _) (by simp only; rw [List.length_drop]; omega)
            refine ⟨l :: ts, ?_, ?_⟩
            · intro t ht
              rcases List.mem_cons.1 ht with rfl | ht
              · refine ⟨List.IsInfix.trans ?_ hinf, by omega, e2⟩
                rw [e1]
                exact (List.prefix_append _ _).isInfix
              · exact h1 t ht
            · rw [loop_go (l := l) (J := J) (readline_def _ _ _ e) rfl h2]
              simp
        · by_cases hsh : x.length < 1024
          · obtain ⟨J, hJ, e⟩ := io_piece (a := ans k) (p := p) (buf := p.buf) (n := BUFSIZE) hf hr hx hlf
              (List.length_pos_iff.1 hx0) hsh (by show 1024 ≤ _; omega)
            obtain ⟨ts, h1, h2⟩ := ih (k + 1) ⟨f.data, f.off + x.length⟩
              { p with fpos := p.fpos + (x.length + 1), len := x.length, buf := x ++ 0 :: J } hd hf (by simp only; omega)
              (by simp only; omega) (by simp only; rw [List.length_drop]; omega)
            refine ⟨x :: ts, ?_, ?_⟩
            · intro t ht
              rcases List.mem_cons.1 ht with rfl | ht
              · exact ⟨hinf, hsh, hlf⟩
              · exact h1 t ht
            · rw [loop_go (l := x) (J := J) (readline_def _ _ _ e) rfl h2]
              simp
          · have e := io_long (a := ans k) (p := p) (buf := p.buf) (n := BUFSIZE) hf hr hx hlf (by decide)
              (by show _ = 1024; omega) (by show 1024 ≤ _; omega)
            refine ⟨[], by simp, ?_⟩
            rw [loop_stop (readline_def _ _ _ e) (by
              cases hsk : (ans k).s with
              | none => simp
              | some er => simp only; intro h; apply hs; rw [hsk]; congr 1; omega)]; rfl

end Ulz.Linecat

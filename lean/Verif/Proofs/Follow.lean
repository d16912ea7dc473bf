import Verif.Spec.Follow
import Verif.Proofs.Fileparser
set_option linter.unusedSimpArgs false
set_option linter.unusedVariables false
namespace Ulz.Follow
open Spec
open Ulz.Fileparser

theorem run_append : ∀ (a b : List Ev) (s s1 s2 : St) (o1 o2 : List Out), run s a = .ok (s1, o1) → run s1 b = .ok (s2, o2) →
    run s (a ++ b) = .ok (s2, o1 ++ o2)
  | [], b, s, s1, s2, o1, o2, h1, h2 => by
    cases h1; exact h2
  | e :: a, b, s, s1, s2, o1, o2, h1, h2 => by
    rw [run] at h1
    cases hst : step s e with
    | error x => rw [hst] at h1; cases h1
    | ok v =>
      obtain ⟨t, o⟩ := v
      rw [hst, ok_bind] at h1
      simp only at h1
      cases hr : run t a with
      | error x => rw [hr] at h1; cases h1
      | ok w =>
        obtain ⟨t', os⟩ := w
        rw [hr] at h1
        cases h1
        rw [List.cons_append, run, hst, ok_bind]
        simp only
        rw [run_append a b t _ _ os o2 hr h2, ok_bind]
        simp [pure_eq_ok]

theorem takeWhile_split (r : List Byte) : ch '\n' ∉ r.takeWhile (· ≠ ch '\n') ∧
    (r.takeWhile (· ≠ ch '\n') = r ∨ ∃ m, r = r.takeWhile (· ≠ ch '\n') ++ ch '\n' :: m) := by
  induction r with
  | nil => exact ⟨by simp, .inl rfl⟩
  | cons c r ih =>
    by_cases h : c = ch '\n'
    · subst h
      refine ⟨?_, .inr ⟨r, ?_⟩⟩ <;> rw [List.takeWhile_cons_of_neg (by simp)] <;> simp
    · rw [List.takeWhile_cons_of_pos (by simpa using h)]
      refine ⟨by simp only [List.mem_cons, not_or]; exact ⟨fun e => h e.symm, ih.1⟩, ?_⟩
      rcases ih.2 with e | ⟨m, e⟩
      · exact .inl (by rw [e])
      · refine .inr ⟨m, ?_⟩
        rw [List.cons_append]
        exact congrArg (c :: ·) e

theorem rdN_prefix {l J : List Byte} : rdN (l ++ 0 :: J) 0 l.length = .ok l := by
  have := rdN_mid (A := []) (M := l) (B := 0 :: J) (i := 0) rfl rfl
  simpa using this

theorem step_read {s : St} (hf : s.p.file ≠ 0) (hb : 0 < s.buf.length) {lost : Nat} (hl : s.p.fpos = s.f.off + lost) :
    ∃ p' buf', step s .read = .ok (⟨⟨s.f.data, s.f.off + (serve s.buf.length (s.f.data.drop s.f.off) lost).1⟩, p', buf'⟩,
        [(serve s.buf.length (s.f.data.drop s.f.off) lost).2.2]) ∧
      buf'.length = s.buf.length ∧ p'.file = s.p.file ∧
      p'.fpos = s.f.off + (serve s.buf.length (s.f.data.drop s.f.off) lost).1 +
        (serve s.buf.length (s.f.data.drop s.f.off) lost).2.1 := by
  obtain ⟨w1, w2⟩ := takeWhile_split (s.f.data.drop s.f.off)
  unfold serve step
  generalize hr : s.f.data.drop s.f.off = rest at *
  simp only
  by_cases h0 : rest = []
  · rw [if_pos h0]
    subst h0
    rw [rl_eof hf hr, ok_bind]
    refine ⟨s.p, s.buf, by simp [pure_eq_ok], rfl, rfl, by simp only; omega⟩
  · rw [if_neg h0]
    generalize hlw : rest.takeWhile (· ≠ ch '\n') = l at *
    by_cases hn : s.buf.length ≤ l.length
    · rw [if_pos hn]
      have hpre : ∃ m, rest = l ++ m := by
        rcases w2 with e | ⟨m, e⟩
        · exact ⟨[], by simp [e]⟩
        · exact ⟨_, e⟩
      obtain ⟨m, e⟩ := hpre
      rw [rl_long (f := s.f) (p := s.p) (buf := s.buf) (bufsize := s.buf.length) hf hb (by rw [hr, e, List.length_append]; omega)
        (by rw [hr, e, List.take_append_of_le_length hn]; exact fun h => w1 (List.mem_of_mem_take h)) (Nat.le_refl _), ok_bind]
      refine ⟨{ s.p with len := s.buf.length }, _, by simp only [hl]; rfl, ?_, rfl, by simp only; omega⟩
      rw [hr, e, List.length_append, List.length_take, List.length_drop, List.length_append]; omega
    · rw [if_neg hn]
      by_cases he : l = rest
      · rw [if_pos he]
        obtain ⟨J, e1, e2⟩ := rl_last (f := s.f) (p := s.p) (buf := s.buf) (l := l) (bufsize := s.buf.length) hf (by rw [hr, he])
          w1 (by rw [he]; exact h0) (by omega) (Nat.le_refl _)
        rw [e1, ok_bind]
        simp only [if_true, rdN_prefix, ok_bind, pure_eq_ok]
        exact ⟨_, _, rfl, e2, rfl, by simp only; omega⟩
      · rw [if_neg he]
        rcases w2 with e | ⟨m, e⟩
        · exact absurd e he
        · obtain ⟨J, e1, e2⟩ := rl_line (f := s.f) (p := s.p) (buf := s.buf) (l := l) (m := m) (bufsize := s.buf.length) hf
            (by rw [hr]; exact e) w1 (by omega) (Nat.le_refl _)
          rw [show s.p.fpos + (l.length + 1) = s.f.off + (l.length + 1 + lost) by omega] at e1
          rw [e1, ok_bind]
          simp only [if_true, rdN_prefix, ok_bind, pure_eq_ok]
          exact ⟨_, _, rfl, e2, rfl, rfl⟩

theorem run_exact : ∀ (es : List Ev) (s : St), s.p.file ≠ 0 → 0 < s.buf.length → ∀ lost, s.p.fpos = s.f.off + lost →
    ∃ s', run s es = .ok (s', serveAll s.buf.length s.f.data s.f.off lost es)
  | [], s, hf, hb, lost, hl => ⟨s, rfl⟩
  | .append x :: es, s, hf, hb, lost, hl => by
    obtain ⟨s', h⟩ := run_exact es { s with f := { s.f with data := s.f.data ++ x } } hf hb lost hl
    exact ⟨s', by simp only [run, step, pure_eq_ok, ok_bind, h]; rfl⟩
  | .read :: es, s, hf, hb, lost, hl => by
    obtain ⟨p', buf', h1, h2, h3, h4⟩ := step_read hf hb hl
    obtain ⟨s', h⟩ := run_exact es ⟨⟨s.f.data, s.f.off + (serve s.buf.length (s.f.data.drop s.f.off) lost).1⟩, p', buf'⟩
      (by rw [h3]; exact hf) (by simp only [h2]; exact hb) _ h4
    refine ⟨s', ?_⟩
    rw [run, h1, ok_bind]
    simp only
    rw [h, ok_bind]
    simp only [h2]
    rfl

theorem takeWhile_line {l m : List Byte} (h : ch '\n' ∉ l) : (l ++ ch '\n' :: m).takeWhile (· ≠ ch '\n') = l := by
  rw [List.takeWhile_append_of_pos (by intro a ha; simp only [ne_eq, decide_eq_true_eq]; intro e; exact h (e ▸ ha)),
    List.takeWhile_cons_of_neg (by simp), List.append_nil]

theorem takeWhile_all {l : List Byte} (h : ch '\n' ∉ l) : l.takeWhile (· ≠ ch '\n') = l := by
  have := List.takeWhile_append_of_pos (p := (· ≠ ch '\n')) (l₁ := l) (l₂ := []) (by
    intro a ha; simp only [ne_eq, decide_eq_true_eq]; intro e; exact h (e ▸ ha))
  simpa using this

theorem serve_line {n : Nat} {l m : List Byte} {lost : Nat} (h : ch '\n' ∉ l) (hn : l.length < n) :
    serve n (l ++ ch '\n' :: m) lost = (l.length + 1 + lost, 0, .line l) := by
  unfold serve
  simp only [takeWhile_line h]
  rw [if_neg (by simp), if_neg (by omega), if_neg (by
    intro e
    have := congrArg List.length e
    simp at this)]

theorem serve_part {n : Nat} {l : List Byte} {lost : Nat} (h : ch '\n' ∉ l) (h0 : l ≠ []) (hn : l.length < n) :
    serve n l lost = (l.length, lost + 1, .line l) := by
  unfold serve
  simp only [takeWhile_all h]
  rw [if_neg h0, if_neg (by omega)]
  simp

theorem serveAll_lines {n : Nat} : ∀ (es : List LEv) (data : List Byte) (pos : Nat) (q : List (List Byte)),
    pos ≤ data.length → data.drop pos = enc q → (∀ l ∈ q, ch '\n' ∉ l ∧ l.length < n) →
    (∀ ls, LEv.lines ls ∈ es → ∀ l ∈ ls, ch '\n' ∉ l ∧ l.length < n) →
    serveAll n data pos 0 (es.map LEv.ev) = queue q es
  | [], data, pos, q, _, _, _, _ => rfl
  | .lines ls :: es, data, pos, q, hp, hd, hq, hes => by
    simp only [List.map_cons, LEv.ev, serveAll, queue]
    refine serveAll_lines es (data ++ enc ls) pos (q ++ ls) (by simp; omega) ?_ ?_ (fun ls h => hes ls (by simp [h]))
    · rw [List.drop_append_of_le_length hp, hd]; simp [enc]
    · intro l hl
      rcases List.mem_append.1 hl with h | h
      · exact hq l h
      · exact hes ls (by simp) l h
  | .read :: es, data, pos, q, hp, hd, hq, hes => by
    simp only [List.map_cons, LEv.ev, serveAll]
    rw [hd]
    cases q with
    | nil =>
      have : serve n (enc []) 0 = (0, 0, .code (-2)) := by simp [serve, enc]
      rw [this]
      simp only [queue, Nat.add_zero]
      rw [serveAll_lines es data pos [] hp hd hq (fun ls h => hes ls (by simp [h]))]
    | cons l q =>
      obtain ⟨h1, h2⟩ := hq l (by simp)
      have e : enc (l :: q) = l ++ ch '\n' :: enc q := by simp [enc]
      rw [e, serve_line h1 h2]
      simp only [queue, Nat.add_zero]
      have hlen := congrArg List.length hd
      rw [e, List.length_drop, List.length_append, List.length_cons] at hlen
      rw [serveAll_lines es data (pos + (l.length + 1)) q (by omega) ?_ (fun x hx => hq x (by simp [hx]))
        (fun ls h => hes ls (by simp [h]))]
      rw [← List.drop_drop, hd, e, List.append_cons, List.drop_left' (by simp)]

theorem serveAll_parts {n : Nat} : ∀ (xs : List (List Byte)) (data : List Byte) (lost : Nat) (es : List Ev),
    (∀ x ∈ xs, ch '\n' ∉ x ∧ x ≠ [] ∧ x.length < n) →
    serveAll n data data.length lost (xs.flatMap (fun x => [.append x, .read]) ++ es) =
      xs.map Out.line ++ serveAll n (data ++ xs.flatten) (data.length + xs.flatten.length) (lost + xs.length) es
  | [], data, lost, es, _ => by simp
  | x :: xs, data, lost, es, h => by
    obtain ⟨h1, h2, h3⟩ := h x (by simp)
    simp only [List.flatMap_cons, List.cons_append, List.nil_append, serveAll, List.append_assoc]
    rw [List.drop_left, serve_part h1 h2 h3]
    simp only
    have := serveAll_parts xs (data ++ x) (lost + 1) es (fun y hy => h y (by simp [hy]))
    rw [List.length_append] at this
    rw [this]
    simp [Nat.add_comm 1, Nat.add_assoc]

end Ulz.Follow

import Verif.Spec.Rotate
import Verif.Proofs.Follow
namespace Ulz.Rotate
open Ulz.Follow (Out St)
open Spec
open Ulz.Follow.Spec (serve enc)

theorem run_exact : ∀ (es : List Ev) (s : St), s.p.file ≠ 0 → 0 < s.buf.length → ∀ lost, s.p.fpos = s.f.off + lost →
    ∃ s', run s es = .ok (s', serveAll s.buf.length s.f.data s.f.off lost es) ∧ s'.p.file ≠ 0 ∧ 0 < s'.buf.length ∧
      ∃ lost', s'.p.fpos = s'.f.off + lost'
  | [], s, hf, hb, lost, hl => ⟨s, rfl, hf, hb, lost, hl⟩
  | .change c :: es, s, hf, hb, lost, hl => by
    obtain ⟨s', h, h'⟩ := run_exact es { s with f := { s.f with data := c } } hf hb lost hl
    exact ⟨s', by simp only [run, step, pure_eq_ok, ok_bind, h]; rfl, h'⟩
  | .read :: es, s, hf, hb, lost, hl => by
    obtain ⟨p', buf', h1, h2, h3, h4⟩ := Follow.step_read hf hb hl
    obtain ⟨s', h, h'⟩ := run_exact es ⟨⟨s.f.data, s.f.off + (serve s.buf.length (s.f.data.drop s.f.off) lost).1⟩, p', buf'⟩
      (by rw [h3]; exact hf) (by simp only [h2]; exact hb) _ h4
    refine ⟨s', ?_, h'⟩
    rw [run, step, h1, ok_bind]
    simp only
    rw [h, ok_bind]
    simp only [h2]
    rfl

theorem drop_more {c c' : List Byte} {pos k : Nat} (h : c.drop pos = c'.drop pos) (hk : pos ≤ k) : c.drop k = c'.drop k := by
  obtain ⟨j, rfl⟩ : ∃ j, k = pos + j := ⟨k - pos, by omega⟩
  rw [← List.drop_drop, ← List.drop_drop, h]

theorem serveAll_same (n : Nat) {pos : Nat} {es es' : List Ev} (h : Same pos es es') : ∀ (data data' : List Byte) (k lost : Nat), pos ≤ k →
    data.drop k = data'.drop k → serveAll n data k lost es = serveAll n data' k lost es' := by
  induction h with
  | nil => intros; rfl
  | read _ ih =>
    intro data data' k lost hk hd
    simp only [serveAll]
    rw [hd, ih data data' _ _ (by omega) (drop_more hd (by omega))]
  | change hc _ ih =>
    intro data data' k lost hk hd
    exact ih _ _ k lost hk (drop_more hc hk)

theorem serve_eof (n : Nat) (rest : List Byte) (lost : Nat) : (serve n rest lost).2.2 = .code (-2) ↔ rest = [] := by
  unfold serve
  simp only
  by_cases h : rest = []
  · simp [h]
  · rw [if_neg h]
    constructor
    · intro e
      split at e
      · exact absurd e (by simp)
      · split at e <;> exact absurd e (by simp)
    · intro e; exact absurd e h

theorem serveAll_end (n : Nat) (data : List Byte) (pos lost : Nat) (h : data.length ≤ pos) : ∀ k,
    serveAll n data pos lost (List.replicate k .read) = List.replicate k (.code (-2))
  | 0 => rfl
  | k + 1 => by
    have hd : data.drop pos = [] := List.drop_eq_nil_of_le h
    have : serve n [] lost = (0, lost, .code (-2)) := by simp [serve]
    simp only [List.replicate_succ, serveAll, hd, this, Nat.add_zero]
    rw [serveAll_end n data pos lost h k]

/-- Lines that are there are read one by one. -/
theorem serveAll_lines (n : Nat) : ∀ (ls : List (List Byte)) (A B : List Byte) (es : List Ev), (∀ l ∈ ls, ch '\n' ∉ l ∧ l.length < n) →
    serveAll n (A ++ enc ls ++ B) A.length 0 (List.replicate ls.length .read ++ es) =
      ls.map Out.line ++ serveAll n (A ++ enc ls ++ B) (A ++ enc ls).length 0 es
  | [], A, B, es, _ => by simp [enc]
  | l :: ls, A, B, es, h => by
    have hl := h l (by simp)
    have hd : (A ++ enc (l :: ls) ++ B).drop A.length = l ++ ch '\n' :: (enc ls ++ B) := by
      rw [List.append_assoc, List.drop_left]
      simp [enc]
    have hs := Follow.serve_line (n := n) (l := l) (m := enc ls ++ B) (lost := 0) hl.1 hl.2
    have ih := serveAll_lines n ls (A ++ l ++ [ch '\n']) B es (fun x hx => h x (by simp [hx]))
    have e1 : A ++ l ++ [ch '\n'] ++ enc ls = A ++ enc (l :: ls) := by simp [enc]
    rw [e1] at ih
    simp only [List.length_cons, List.replicate_succ, List.cons_append, serveAll, hd, hs, List.map_cons]
    congr 1
    rw [← ih]
    congr 1
    simp

end Ulz.Rotate

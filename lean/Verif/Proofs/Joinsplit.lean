import Verif.Spec.Joinsplit
import Verif.Props.Stringptrlist
set_option linter.unusedSimpArgs false
set_option linter.unusedVariables false
namespace Ulz.Joinsplit
open Ulz.Stringptr Ulz.Stringptr.Spec Ulz.Joinsplit.Spec

theorem slices_unique {buf : List Byte} {ps : List Piece} {a b : List (List Byte)} (ha : Slices buf ps a) (hb : Slices buf ps b) : a = b := by
  induction ha generalizing b with
  | nil => cases hb; rfl
  | cons h1 h2 _ ih =>
    cases hb with
    | cons g1 g2 g3 =>
      rw [ih g3]
      have := h2.symm.trans g2
      rw [(List.append_inj' this rfl).1]

theorem split_free {d s : List Byte} {ps : List (List Byte)} (hd : d ≠ []) (h : Split d s ps) : ∀ p ∈ ps, ¬d <:+: p := by
  induction h with
  | last h => intro p hp; rw [List.mem_singleton] at hp; subst hp; exact h
  | @cons p rest ps h1 h2 ih =>
    intro q hq
    rcases List.mem_cons.1 hq with rfl | hq
    · rintro ⟨u, v, rfl⟩
      refine h1 u.length ?_ ⟨v ++ d ++ rest, ?_⟩
      · have := List.length_pos_iff.2 hd
        simp only [List.length_append]
        omega
      · simp [List.append_assoc]
    · exact ih q hq

theorem straddle {d p rest : List Byte} (hb : ¬Bordered d) (hp : ¬d <:+: p) {k : Nat} (hk : k < p.length) :
    ¬d <+: (p ++ d ++ rest).drop k := by
  intro h
  rw [List.append_assoc, List.drop_append_of_le_length (by omega)] at h
  by_cases hl : d.length ≤ (p.drop k).length
  · have h' := List.prefix_of_prefix_length_le h (List.prefix_append _ _) hl
    exact hp (h'.isInfix.trans (List.drop_suffix k p).isInfix)
  · have h1 : p.drop k <+: d := List.prefix_of_prefix_length_le (List.prefix_append _ _) h (by omega)
    obtain ⟨x, hx⟩ := h1
    rw [← hx] at h
    have h2 : x <+: (p.drop k ++ x) ++ rest := by
      have := (List.prefix_append_right_inj (p.drop k)).1 h
      exact this
    rw [hx] at h2
    have hlx : (p.drop k).length + x.length = d.length := by rw [← List.length_append, hx]
    have hpos : 0 < (p.drop k).length := by rw [List.length_drop]; omega
    obtain ⟨z, hz⟩ := List.prefix_of_prefix_length_le h2 (List.prefix_append _ _) (by omega)
    refine hb ⟨x, z, p.drop k, ?_, by omega, hz.symm, hx.symm⟩
    intro h0
    rw [h0] at hlx
    simp only [List.length_nil] at hlx
    omega

theorem split_of_free {d : List Byte} (hb : ¬Bordered d) : ∀ (ps : List (List Byte)), ps ≠ [] → (∀ p ∈ ps, ¬d <:+: p) → Split d (join d ps) ps
  | [], h, _ => absurd rfl h
  | [p], _, h => .last (h p (by simp))
  | p :: q :: ps, _, h =>
    .cons (fun k hk => straddle hb (h p (by simp)) hk) (split_of_free hb (q :: ps) (by simp) (fun r hr => h r (by simp [hr])))

theorem bordered_witness {d : List Byte} (h : Bordered d) : ∃ p, p ≠ [] ∧ p.length < d.length ∧ ¬Split d (join d [p, []]) [p, []] := by
  obtain ⟨b, x, y, h1, h2, h3, h4⟩ := h
  have hl : y.length + b.length = d.length := by rw [h4]; simp
  have hb := List.length_pos_iff.2 h1
  refine ⟨y, ?_, by omega, ?_⟩
  · rintro rfl
    simp at hl
    omega
  · intro hs
    have hjoin : join d [y, []] = d ++ x := by
      have e : join d [y, []] = y ++ d := by simp [join]
      rw [e]
      calc y ++ d = y ++ (b ++ x) := by rw [← h3]
        _ = (y ++ b) ++ x := by rw [List.append_assoc]
        _ = d ++ x := by rw [← h4]
    generalize hg : join d [y, []] = s at hs
    rw [hg] at hjoin
    cases hs with
    | cons hk _ =>
      refine hk 0 (by omega) ?_
      rw [List.drop_zero, hjoin]
      exact List.prefix_append _ _

theorem lines_join' {d : List Byte} : ∀ ss : List (List Byte), (ss.map (· ++ d)).flatten = join d (ss ++ [[]])
  | [] => rfl
  | s :: ss => by
    rw [List.cons_append, join_cons (by simp), ← lines_join' ss]
    simp

theorem crlf_unbordered : ¬Bordered [ch '\r', ch '\n'] := by
  rintro ⟨b, x, y, h1, h2, h3, h4⟩
  match b, h1, h2 with
  | [c], _, _ =>
    have e1 : c = ch '\r' := by
      have := congrArg List.head? h3
      simpa using this.symm
    have e2 : c = ch '\n' := by
      have := congrArg List.getLast? h4
      simpa using this.symm
    exact absurd (e1.symm.trans e2) (by decide)
  | _ :: _ :: _, _, h2 => simp at h2; omega

end Ulz.Joinsplit

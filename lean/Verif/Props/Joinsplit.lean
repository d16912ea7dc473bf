import Verif.Proofs.Joinsplit
/-! # C242: joining with a string and splitting at it -/
namespace Ulz.Props
open Ulz.Stringptr Ulz.Stringptr.Spec Ulz.Joinsplit Ulz.Joinsplit.Spec

/-- **C242** If no proper part of the delimiter is both its beginning and its end, then `stringptr_splits` of texts joined with it gives
    the texts back exactly if none of them contains the delimiter. -/
theorem joinsplit_iff (d dj junk : List Byte) (x : Byte) (pcs : List (List Byte)) (hd : d ≠ []) (hb : ¬Bordered d) (hp : pcs ≠ [])
    (hs : (join d pcs).length < 2 ^ 64) (fuel : Nat) (hf : (join d pcs).length + 2 ≤ fuel) :
    ∃ buf res, splits ⟨join d pcs ++ x :: junk, (join d pcs).length⟩ ⟨d ++ dj, d.length⟩ (fun _ => true) fuel = .ok (buf, res) ∧
      (Slices buf res pcs ↔ ∀ p ∈ pcs, ¬d <:+: p) := by
  obtain ⟨qcs, res, h1, h2, h3, h4⟩ := stringptr_splits_correct (join d pcs) junk d dj x (fun _ => true) hd hs
  rw [keep_everything] at h4
  refine ⟨_, res, h3 fuel hf, ?_, ?_⟩
  · intro h
    rw [slices_unique h h4]
    exact split_free hd h1
  · intro h
    rw [split_at_string_unique _ _ _ _ (split_of_free hb pcs hp h) h1]
    exact h4

example : ¬Bordered (bytes! ", ") ∧ Bordered (bytes! "--") := by
  constructor
  · rintro ⟨b, x, y, h1, h2, h3, h4⟩
    match b, h1, h2 with
    | [c], _, _ =>
      have e1 : some 44 = some c := by
        have := congrArg List.head? h3
        simpa using this
      have e2 : some 32 = some c := by
        have := congrArg List.getLast? h4
        simpa using this
      exact absurd (e1.trans e2.symm) (by decide)
    | _ :: _ :: _, _, h2 => simp at h2; omega
  · exact ⟨bytes! "-", bytes! "-", bytes! "-", by decide, by decide, by decide, by decide⟩

/-- **C242** With every other delimiter there are two texts, both shorter than the delimiter, that do not come back. -/
theorem joinsplit_bordered (d dj junk : List Byte) (x : Byte) (hb : Bordered d) (hs : 2 * d.length < 2 ^ 64) (fuel : Nat)
    (hf : 2 * d.length + 2 ≤ fuel) :
    ∃ p q buf res, p.length < d.length ∧ q.length < d.length ∧
      splits ⟨join d [p, q] ++ x :: junk, (join d [p, q]).length⟩ ⟨d ++ dj, d.length⟩ (fun _ => true) fuel = .ok (buf, res) ∧
      ¬Slices buf res [p, q] := by
  obtain ⟨p, h1, h2, h3⟩ := bordered_witness hb
  have hd : d ≠ [] := by rintro rfl; simp at h2
  have hl : (join d [p, []]).length < 2 * d.length := by simp [join]; omega
  obtain ⟨qcs, res, g1, g2, g3, g4⟩ := stringptr_splits_correct (join d [p, []]) junk d dj x (fun _ => true) hd (by omega)
  rw [keep_everything] at g4
  refine ⟨p, [], _, res, h2, List.length_pos_iff.2 hd, g3 fuel (by omega), fun h => ?_⟩
  rw [slices_unique g4 h] at g1
  exact h3 g1

example : splits ⟨join (bytes! "--") [bytes! "-", []] ++ [0], 3⟩ ⟨bytes! "--", 2⟩ (fun _ => true) 6 = .ok ([0] ++ bytes! "--" ++ [0], [(0, 0), (2, 1)]) := by
  decide +kernel

/-- **C242** A list written with `stringptrlist_tostring_dos` and split at CR LF: the entries and one more, empty, text come back exactly if no
    entry contains CR LF. Single carriage returns and line feeds inside entries do no harm. -/
theorem joinsplit_dos_iff (f : Nat → Byte) (l : List SP) (ss : List (List Byte)) (h : HoldsAll l ss) (dj : List Byte)
    (hs : (ss.map (· ++ [ch '\r', ch '\n'])).flatten.length + 17 < 2 ^ 64) (fuel : Nat)
    (hf : (ss.map (· ++ [ch '\r', ch '\n'])).flatten.length + 2 ≤ fuel) :
    ∃ t buf res, tostring_dos (some f) l = .ok (some t) ∧
      splits t ⟨[ch '\r', ch '\n'] ++ dj, 2⟩ (fun _ => true) fuel = .ok (buf, res) ∧
      (Slices buf res (ss ++ [[]]) ↔ ∀ s ∈ ss, ¬[ch '\r', ch '\n'] <:+: s) := by
  have e := lines_join' (d := [ch '\r', ch '\n']) ss
  obtain ⟨buf, res, h1, h2⟩ := joinsplit_iff [ch '\r', ch '\n'] dj [] 0 (ss ++ [[]]) (by simp) crlf_unbordered (by simp)
    (by rw [← e]; omega) fuel (by rw [← e]; exact hf)
  refine ⟨_, buf, res, stringptrlist_tostring_dos_correct (some f) l ss h hs, ?_, ?_⟩
  · rw [e]; exact h1
  · rw [h2]
    constructor
    · intro g s hm; exact g s (by simp [hm])
    · intro g s hm
      rcases List.mem_append.1 hm with hm | hm
      · exact g s hm
      · rw [List.mem_singleton] at hm
        subst hm
        rintro ⟨u, v, huv⟩
        simp at huv

example : ∃ t buf res, tostring_dos (some fun _ => 7) [⟨bytes! "a\r", 2⟩, ⟨bytes! "\nb", 2⟩] = .ok (some t) ∧
    splits t ⟨[ch '\r', ch '\n'] ++ [], 2⟩ (fun _ => true) 100 = .ok (buf, res) ∧ Slices buf res ([bytes! "a\r", bytes! "\nb"] ++ [[]]) := by
  obtain ⟨t, buf, res, h1, h2, h3⟩ := joinsplit_dos_iff (fun _ => 7) [⟨bytes! "a\r", 2⟩, ⟨bytes! "\nb", 2⟩] [bytes! "a\r", bytes! "\nb"]
    (.cons ⟨rfl, [], rfl⟩ (.cons ⟨rfl, [], rfl⟩ .nil)) [] (by decide) 100 (by decide)
  exact ⟨t, buf, res, h1, h2, h3.2 (by decide)⟩

end Ulz.Props

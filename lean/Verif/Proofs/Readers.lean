import Verif.Model.Readers
import Verif.Proofs.Stdin
import Verif.Props.Stdin
import Verif.Props.Fileparser
import Verif.Props.Wholefile
import Verif.Props.Stringptrlist
/-! Lemmas about the ways to read lines. -/
namespace Ulz.Readers
open Ulz.Stringptr Ulz.Stringptr.Spec Ulz.Fileparser.Spec
open Ulz.Stdin.Spec (Pieces str unlines)

theorem join_content : ∀ (full : List (List Byte)) (last : List Byte) (d : Byte), join [d] (full ++ [last]) = (full.map (· ++ [d])).flatten ++ last
  | [], _, _ => by simp [join]
  | l :: full, last, d => by
    rw [List.cons_append, join_cons (by simp), join_content full last d]
    simp

theorem content_pieces {data : List Byte} {full : List (List Byte)} {last : List Byte} (h : Content data full last) {pcs : List (List Byte)}
    (hj : join [ch '\n'] pcs = data) (hp : ∀ p ∈ pcs, ch '\n' ∉ p) (hne : pcs ≠ []) : pcs = full ++ [last] := by
  apply join_inj (d := ch '\n') hne (by simp) hp
  · intro p hp
    rcases List.mem_append.1 hp with hp | hp
    · exact h.lf p hp
    · rw [List.mem_singleton.1 hp]; exact h.lf'
  · rw [hj, join_content, h.eq]

theorem slices_texts {buf : List Byte} {res : List Piece} {cs : List (List Byte)} (h : Slices buf res cs) :
    (res.mapM fun (x : Piece) => rdN buf x.1 x.2) = .ok cs := by
  induction h with
  | nil => rfl
  | @cons p c ps cs h1 h2 _ ih =>
    rw [List.mapM_cons, ih]
    have hl := congrArg List.length h2
    rw [List.length_take, List.length_drop, List.length_append, List.length_singleton, h1] at hl
    have e : rdN buf p.1 p.2 = .ok c := by
      unfold rdN
      rw [if_pos (by omega)]
      have := congrArg (List.take p.2) h2
      rw [List.take_take, Nat.min_eq_left (by omega), h1, List.take_left] at this
      rw [h1, this]
    rw [e]
    rfl

theorem texts_holds {l : List SP} {ss : List (List Byte)} (h : HoldsAll l ss) : texts l = .ok ss := by
  induction h with
  | nil => rfl
  | @cons p s l ss hp _ ih =>
    unfold texts at ih ⊢
    rw [List.mapM_cons, ih]
    obtain ⟨h1, t, h2⟩ := hp
    have e : rdN p.buf 0 p.size = .ok s := by
      unfold rdN
      rw [← h2, if_pos (by rw [List.length_append]; omega), h1, List.drop_zero, List.take_left]
    rw [e]
    rfl

theorem pieces_length {k : Nat} {t : List Byte} {ps : List (List Byte)} (h : Pieces k t ps) :
    (ps.map fun p => (str p).dropLast).flatten.length + ps.length ≤ t.length ∧
      ((0 : Byte) ∉ t → (ps.map fun p => (str p).dropLast).flatten.length + ps.length = t.length) := by
  induction h with
  | nil => exact ⟨Nat.le_refl _, fun _ => rfl⟩
  | @cons p rest ps hp _ ih =>
    have hpos : 0 < p.length := List.length_pos_iff.2 hp.1
    have hs : (str p).length ≤ p.length := by
      unfold str
      exact (List.takeWhile_prefix _).length_le
    simp only [List.map_cons, List.flatten_cons, List.length_append, List.length_cons, List.length_dropLast]
    refine ⟨by omega, fun h0 => ?_⟩
    have e := ih.2 (fun h => h0 (List.mem_append.2 (Or.inr h)))
    rw [Stdin.str_id (fun h => h0 (List.mem_append.2 (Or.inl h)))]
    omega

theorem content_length {data : List Byte} {full : List (List Byte)} {last : List Byte} (h : Content data full last) :
    (full ++ [last]).flatten.length + full.length = data.length := by
  have := join_length (sep := [ch '\n']) (xs := full ++ [last]) (by simp)
  rw [join_content, ← h.eq] at this
  simp only [List.length_singleton, List.length_append, Nat.mul_one] at this ⊢
  omega

theorem split_spec {data : List Byte} (h0 : data ≠ []) (hs : data.length + 17 < 2 ^ 64) {full : List (List Byte)} {last : List Byte}
    (h : Content data full last) (f : Nat → Byte) {answers : List (Option Nat)} (h1 : none ∉ answers) (h2 : data.length ≤ Wholefile.Spec.useful answers) :
    splitLines (some f) data answers = .ok (some (full ++ [last])) := by
  unfold splitLines
  rcases Props.stringptr_fromfile_correct data.length (List.length_pos_iff.2 h0) hs data (Nat.le_refl _) f answers with
    ⟨p, e, hp, hb⟩ | ⟨-, hx⟩ | ⟨-, -, hx⟩
  · rw [e]
    simp only [ok_bind]
    have hp' : p = ⟨data ++ 0 :: [], data.length⟩ := by
      cases p with
      | mk buf size =>
        rw [List.take_of_length_le (Nat.le_refl _)] at hb hp
        simp only at hb
        rw [hb]
        congr 1
        exact hp.1
    rw [hp']
    obtain ⟨pcs, res, k1, k2, k3, k4, k5⟩ := Props.stringptr_splitc_correct data [] 0 (ch '\n') (fun _ => true)
    rw [k1]
    simp only [ok_bind]
    rw [Props.keep_everything] at k5
    rw [slices_texts k5, content_pieces h k2 k3 (by intro hx; rw [hx] at k4; simp at k4)]
    rfl
  · exact absurd hx h1
  · omega

theorem takeWhile_mem {α} {q : α → Bool} {x : α} : ∀ {l : List α}, x ∈ l.takeWhile q → q x = true
  | [], h => by cases h
  | y :: l, h => by
    rw [List.takeWhile_cons] at h
    split at h
    · rename_i hy
      rcases List.mem_cons.1 h with rfl | h
      · exact hy
      · exact takeWhile_mem h
    · cases h

theorem takeWhile_all {α} {q : α → Bool} : ∀ {l : List α}, (∀ x ∈ l, q x = true) → l.takeWhile q = l
  | [], _ => rfl
  | y :: l, h => by
    rw [List.takeWhile_cons, if_pos (h y (by simp)), takeWhile_all (fun x hx => h x (by simp [hx]))]

end Ulz.Readers

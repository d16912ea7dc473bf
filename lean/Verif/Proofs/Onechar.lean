import Verif.Proofs.Scrub
set_option linter.unusedSimpArgs false
set_option linter.unusedVariables false
namespace Ulz.Onechar
open Ulz.Stringptr Ulz.Stringptr.Spec

theorem hit_same {buf dj : List Byte} {size i : Nat} {c : Byte} (hs : size < 2 ^ 64) (hi : i ≤ size) :
    splitsHit buf size ⟨c :: dj, 1⟩ i = (if i = size then pure true else do pure (decide ((← rd buf i).toInt = c.toInt))) := by
  unfold splitsHit
  split
  · rfl
  · rename_i hne
    unfold here
    rw [sztSub_of_le hi hs]
    rw [if_pos (show (1 : Nat) ≤ size - i by omega)]
    unfold memEq rdN
    rw [if_pos (by simp), ok_bind]
    by_cases h : i < buf.length
    · rw [if_pos (show i + 1 ≤ buf.length by omega), ok_bind, rd_ok h, ok_bind, List.drop_eq_getElem_cons h]
      congr 1
      simp only [List.drop_zero, List.take_succ_cons, List.take_zero, List.cons.injEq, and_true, decide_eq_decide]
      constructor
      · intro e; rw [e]
      · intro e; exact (BitVec.eq_of_toInt_eq e).symm
    · rw [if_neg (show ¬i + 1 ≤ buf.length by omega)]
      unfold rd
      rw [List.getElem?_eq_none (by omega)]
      rfl

theorem loop_same {dj : List Byte} {size : Nat} {c : Byte} (ok : Nat → Bool) (hs : size < 2 ^ 64) :
    ∀ (n fuel i ls : Nat) (buf : List Byte) (acc : List Piece) (k : Nat), i + n = size + 1 → n < fuel →
      splitsLoop size ⟨c :: dj, 1⟩ ok fuel i ls buf acc k = splitcLoop size c.toInt ok n i ls buf acc k
  | 0, fuel + 1, i, ls, buf, acc, k, h, _ => by
    rw [splitsLoop, if_neg (by omega), splitcLoop]
  | n + 1, fuel + 1, i, ls, buf, acc, k, h, hf => by
    rw [splitsLoop, if_pos (by omega), splitcLoop, hit_same hs (by omega)]
    have step : ∀ hit : Bool, (if hit = true then do
          let b ← wr buf i 0
          splitsLoop size ⟨c :: dj, 1⟩ ok fuel (i + 1) (i + 1) b (if ok k = true then acc ++ [(ls, i - ls)] else acc) (k + 1)
        else splitsLoop size ⟨c :: dj, 1⟩ ok fuel (i + 1) ls buf acc k) = (if hit = true then do
          let b ← wr buf i 0
          splitcLoop size c.toInt ok n (i + 1) (i + 1) b (if ok k = true then acc ++ [(ls, i - ls)] else acc) (k + 1)
        else splitcLoop size c.toInt ok n (i + 1) ls buf acc k) := by
      intro hit
      cases hit
      · exact loop_same ok hs n fuel _ _ _ _ _ (by omega) (by omega)
      · simp only [if_true]
        cases wr buf i 0 with
        | error e => rfl
        | ok b => exact loop_same ok hs n fuel _ _ _ _ _ (by omega) (by omega)
    by_cases he : i = size
    · rw [if_pos he, if_pos he]
      exact step true
    · rw [if_neg he, if_neg he]
      cases rd buf i with
      | error e => rfl
      | ok v => exact step (decide (v.toInt = c.toInt))

theorem last_piece {d : Byte} : ∀ (pcs : List (List Byte)), pcs ≠ [] → (∀ p ∈ pcs, d ∉ p) →
    (d ∉ join [d] pcs ∧ pcs = [join [d] pcs]) ∨
    ∃ u p, join [d] pcs = u ++ d :: p ∧ pcs.getLast? = some p ∧ d ∉ p
  | [], h, _ => absurd rfl h
  | [p], _, h => .inl ⟨by simpa [join] using h p (by simp), by simp [join]⟩
  | p :: q :: ps, _, h => by
    right
    rw [join_cons (by simp)]
    rcases last_piece (q :: ps) (by simp) (fun r hr => h r (by simp [hr])) with ⟨h1, h2⟩ | ⟨u, r, h1, h2, h3⟩
    · refine ⟨p, join [d] (q :: ps), by simp, ?_, h1⟩
      rw [List.getLast?_cons_cons, h2]
      simp [join]
    · exact ⟨p ++ [d] ++ u, r, by rw [h1]; simp, by rw [List.getLast?_cons_cons]; exact h2, h3⟩

end Ulz.Onechar

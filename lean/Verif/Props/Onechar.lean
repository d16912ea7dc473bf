import Verif.Proofs.Onechar
/-! # C247: splitting at a character and at a text of one character -/
namespace Ulz.Props
open Ulz.Stringptr Ulz.Stringptr.Spec Ulz.Onechar

/-- **C247** `stringptr_splits` at a text of one character and `stringptr_splitc` at the character do the same: the same pieces at the same
    places, the same changes to the buffer, the same entries lost if the list cannot grow, the same errors if the buffer is too short. -/
theorem onechar_same (s : SP) (c : Byte) (dj : List Byte) (ok : Nat → Bool) (hs : s.size < 2 ^ 64) (fuel : Nat) (hf : s.size + 2 ≤ fuel) :
    splits s ⟨c :: dj, 1⟩ ok fuel = splitc s c.toInt ok :=
  loop_same ok hs (s.size + 1) fuel 0 0 s.buf [] 0 (by omega) (by omega)

example : splits ⟨bytes! "a,,b" ++ [0], 4⟩ ⟨bytes! ",", 1⟩ (fun _ => true) 6 = .ok ([97, 0, 0, 98, 0], [(0, 1), (2, 0), (3, 1)]) := by decide +kernel

/-- **C247** The last piece is what follows the place that `stringptr_rchr` finds for the character; if it finds none the text is the only
    piece. -/
theorem onechar_last (s junk : List Byte) (x c : Byte) :
    ∃ r buf res pcs, rchr (some ⟨s ++ x :: junk, s.length⟩) c.toInt = .ok r ∧
      splitc ⟨s ++ x :: junk, s.length⟩ c.toInt (fun _ => true) = .ok (buf, res) ∧ Slices buf res pcs ∧
      match r with
      | none => pcs = [s]
      | some k => pcs.getLast? = some (s.drop (k + 1)) ∧ 2 ≤ pcs.length := by
  obtain ⟨pcs, res, h1, h2, h3, h4, h5⟩ := stringptr_splitc_correct s junk x c (fun _ => true)
  rw [keep_everything] at h5
  obtain ⟨r, g1, g2⟩ := stringptr_rchr_correct s (x :: junk) c.toInt
  refine ⟨r, _, res, pcs, g1, h1, h5, ?_⟩
  have h0 : pcs ≠ [] := by rintro rfl; simp at h4
  rcases last_piece pcs h0 h3 with ⟨k1, k2⟩ | ⟨u, p, k1, k2, k3⟩
  · rw [h2] at k1 k2
    match r, g2 with
    | none, _ => exact k2
    | some k, ⟨h, e, _⟩ => exact absurd (BitVec.eq_of_toInt_eq e ▸ List.getElem_mem h) k1
  · rw [h2] at k1
    match r, g2 with
    | none, g2 =>
      exfalso
      have hl : u.length < s.length := by rw [k1]; simp
      refine g2 u.length hl ?_
      simp [k1]
    | some k, ⟨h, e, g⟩ =>
      have hl : u.length < s.length := by rw [k1]; simp
      have hk : k = u.length := by
        rcases Nat.lt_trichotomy k u.length with hlt | heq | hgt
        · exact absurd (by simp [k1]) (g u.length hl hlt)
        · exact heq
        · exfalso
          have e' := BitVec.eq_of_toInt_eq e
          refine k3 ?_
          have hp : k - u.length - 1 < p.length := by
            have := congrArg List.length k1
            simp at this
            omega
          have : s[k] = p[k - u.length - 1] := by
            have e1 : s[k]? = some p[k - u.length - 1] := by
              rw [k1, List.getElem?_append_right (by omega), List.getElem?_cons, if_neg (by omega), List.getElem?_eq_getElem hp]
            rw [List.getElem?_eq_getElem h] at e1
            exact Option.some.inj e1
          rw [← e', this]
          exact List.getElem_mem hp
      refine ⟨?_, ?_⟩
      · rw [k2, hk, k1, List.drop_append, List.drop_eq_nil_of_le (by omega)]
        simp
      · have : 0 < s.count c := List.count_pos_iff.2 (by rw [k1]; simp)
        omega

example : rchr (some ⟨bytes! "a/b/c" ++ [0], 5⟩) 47 = .ok (some 3) := by decide +kernel

end Ulz.Props

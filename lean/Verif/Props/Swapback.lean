import Verif.Proofs.Swapback
/-! # C244: replacing one text by another and back -/
namespace Ulz.Props
open Ulz.Stringptr Ulz.Stringptr.Spec Ulz.Joinsplit Ulz.Joinsplit.Spec Ulz.Swapback

/-- **C244** Replacing the text `a` by another text `b`, of which no proper part is both its beginning and its end, and then `b` by `a` with
    `stringptr_replace` gives the original exactly if `b` is in none of the pieces between the `a`s. -/
theorem swap_back_iff (f : Nat → Byte) (s junk a aj b bj : List Byte) (x : Byte) (ha : a ≠ []) (hb : b ≠ []) (hne : a ≠ b) (hnb : ¬Bordered b)
    (pcs : List (List Byte)) (hs : Split a s pcs) (h1 : s.length + 1 < 2 ^ 64) (h2 : (join b pcs).length + 17 < 2 ^ 64)
    (h3 : ∀ qcs, Split b (join b pcs) qcs → (join a qcs).length + 17 < 2 ^ 64)
    (fuel : Nat) (hf : s.length + 2 ≤ fuel) (hf' : (join b pcs).length + 2 ≤ fuel) :
    ∃ buf t buf' r, replace (some f) ⟨s ++ x :: junk, s.length⟩ ⟨a ++ aj, a.length⟩ ⟨b ++ bj, b.length⟩ fuel = .ok (buf, some t) ∧
      replace (some f) t ⟨b ++ bj, b.length⟩ ⟨a ++ aj, a.length⟩ fuel = .ok (buf', some r) ∧
      (r = ⟨s ++ [0], s.length⟩ ↔ ∀ p ∈ pcs, ¬b <:+: p) := by
  obtain ⟨pcs', buf, g1, g2⟩ := stringptr_replace_correct f s junk a aj b bj x ha h1 fuel hf (fun q hq => by rw [← split_unique hs hq]; exact h2)
  obtain rfl := split_unique hs g1
  obtain ⟨qcs, buf', k1, k2⟩ := stringptr_replace_correct f (join b pcs) [] b bj a aj 0 hb (by omega) fuel hf' h3
  refine ⟨buf, _, buf', _, g2, k2, ?_⟩
  rw [← back_iff hne hb hnb (split_ne hs) (fun p hp => Nat.lt_of_le_of_lt (piece_le hs p hp) (by omega)) k1, split_join hs]
  constructor
  · intro h
    injection h with e _
    exact (List.append_inj' e rfl).1
  · intro h
    rw [h]

/-- **C244** In particular if `b` is not in the original. -/
theorem swap_back_absent (f : Nat → Byte) (s junk a aj b bj : List Byte) (x : Byte) (ha : a ≠ []) (hb : b ≠ []) (hne : a ≠ b) (hnb : ¬Bordered b)
    (hfree : ¬b <:+: s) (pcs : List (List Byte)) (hs : Split a s pcs) (h1 : s.length + 17 < 2 ^ 64) (h2 : (join b pcs).length + 17 < 2 ^ 64)
    (fuel : Nat) (hf : s.length + 2 ≤ fuel) (hf' : (join b pcs).length + 2 ≤ fuel) :
    ∃ buf t buf', replace (some f) ⟨s ++ x :: junk, s.length⟩ ⟨a ++ aj, a.length⟩ ⟨b ++ bj, b.length⟩ fuel = .ok (buf, some t) ∧
      replace (some f) t ⟨b ++ bj, b.length⟩ ⟨a ++ aj, a.length⟩ fuel = .ok (buf', some ⟨s ++ [0], s.length⟩) := by
  have hp : ∀ p ∈ pcs, ¬b <:+: p := fun p hp h => hfree (h.trans (piece_infix hs p hp))
  obtain ⟨buf, t, buf', r, g1, g2, g3⟩ := swap_back_iff f s junk a aj b bj x ha hb hne hnb pcs hs (by omega) h2
    (fun q hq => by rw [split_unique hq (split_of_free hnb pcs (split_ne hs) hp), split_join hs]; exact h1) fuel hf hf'
  exact ⟨buf, t, buf', g1, by rw [g2, g3.2 hp]⟩

example : ∃ buf t buf', replace (some fun _ => 7) ⟨bytes! "a, b, c" ++ 0 :: [], 7⟩ ⟨bytes! ", " ++ [], 2⟩ ⟨bytes! "\r\n" ++ [], 2⟩ 9 = .ok (buf, some t) ∧
    replace (some fun _ => 7) t ⟨bytes! "\r\n" ++ [], 2⟩ ⟨bytes! ", " ++ [], 2⟩ 9 = .ok (buf', some ⟨bytes! "a, b, c" ++ [0], 7⟩) :=
  swap_back_absent (fun _ => 7) (bytes! "a, b, c") [] (bytes! ", ") [] (bytes! "\r\n") [] 0 (by decide) (by decide) (by decide) crlf_unbordered
    (by decide) [bytes! "a", bytes! "b", bytes! "c"]
    (Split.cons (p := bytes! "a") (by decide) (Split.cons (p := bytes! "b") (by decide) (Split.last (by decide)))) (by decide) (by decide)
    9 (by decide) (by decide)

/-- **C244** With every other `b` this fails: for each character that is not in `b` there is a text without `b` that does not come back
    when the character is replaced by `b` and `b` by the character. -/
theorem swap_back_bordered (f : Nat → Byte) (b bj aj junk : List Byte) (x c : Byte) (hb : Bordered b) (hc : c ∉ b) (hl : 2 * b.length + 17 < 2 ^ 64)
    (fuel : Nat) (hf : 2 * b.length + 2 ≤ fuel) :
    ∃ s buf t buf' r, ¬b <:+: s ∧
      replace (some f) ⟨s ++ x :: junk, s.length⟩ ⟨[c] ++ aj, 1⟩ ⟨b ++ bj, b.length⟩ fuel = .ok (buf, some t) ∧
      replace (some f) t ⟨b ++ bj, b.length⟩ ⟨[c] ++ aj, 1⟩ fuel = .ok (buf', some r) ∧ r ≠ ⟨s ++ [0], s.length⟩ := by
  obtain ⟨z, u, y, e1, e2, e3, e4⟩ := hb
  have lz := List.length_pos_iff.2 e1
  have l1 : b.length = z.length + u.length := by rw [e3]; simp
  have l2 : b.length = y.length + z.length := by rw [e4]; simp
  have hb0 : b ≠ [] := by rintro rfl; simp at e2
  have hy0 : y ≠ [] := by rintro rfl; simp at l2; omega
  have hcy : c ∉ y := fun h => hc (by rw [e4]; simp [h])
  have hs := split_char hcy
  have hj : join b [y, []] = [] ++ b ++ u := by
    have e : join b [y, []] = y ++ b := by simp [join]
    rw [e]
    calc y ++ b = y ++ (z ++ u) := by rw [← e3]
      _ = (y ++ z) ++ u := by rw [List.append_assoc]
      _ = [] ++ b ++ u := by rw [← e4]; rfl
  have hq : Split b (join b [y, []]) [[], u] := by
    rw [hj]
    refine .cons (fun k hk => absurd hk (by simp)) (.last fun h => ?_)
    have := h.length_le
    omega
  have lj : (join b [y, []]).length = b.length + u.length := by rw [hj]; simp
  obtain ⟨pcs, buf, g1, g2⟩ := stringptr_replace_correct f (y ++ [c]) junk [c] aj b bj x (by simp) (by simp; omega) fuel (by simp; omega)
    (fun q hq' => by rw [← split_unique hs hq', lj]; omega)
  obtain rfl := split_unique hs g1
  obtain ⟨qcs, buf', k1, k2⟩ := stringptr_replace_correct f (join b [y, []]) [] b bj [c] aj 0 hb0 (by omega) fuel (by omega)
    (fun q hq' => by rw [← split_unique hq hq']; simp [join]; omega)
  obtain rfl := split_unique hq k1
  refine ⟨y ++ [c], buf, _, buf', _, ?_, g2, k2, ?_⟩
  · rintro ⟨v, w, h⟩
    have hlen := congrArg List.length h
    simp only [List.length_append, List.length_cons, List.length_nil] at hlen
    obtain rfl : w = [] := List.length_eq_zero_iff.1 (by omega)
    rcases List.eq_nil_or_concat b with h0 | ⟨b', d, hd⟩
    · exact hb0 h0
    · rw [hd, List.concat_eq_append, List.append_nil, ← List.append_assoc] at h
      have e := (List.append_inj' h rfl).2
      injection e with e _
      exact hc (by rw [hd, e]; simp)
  · intro h
    injection h with e _
    have e' := (List.append_inj' e rfl).1
    match y, hy0 with
    | d :: y', _ =>
      have : c = d := by simpa [join] using congrArg List.head? e'
      exact hcy (by simp [this])

example : Bordered (bytes! "--") ∧ ch ',' ∉ bytes! "--" := ⟨⟨bytes! "-", bytes! "-", bytes! "-", by decide, by decide, by decide, by decide⟩, by decide⟩

end Ulz.Props

import Verif.Proofs.Scrub
/-! # C246: replacing until nothing is left to replace -/
namespace Ulz.Props
open Ulz.Stringptr Ulz.Stringptr.Spec Ulz.Scrub

/-- **C246** Calling `stringptr_replace` as long as `stringptr_contains` finds the pattern ends if the replacement is shorter, after at most as
    many rounds as the string has bytes; the result is not longer and does not contain the pattern. A string without the pattern is
    returned as it is, and if the replacement is empty the result is the string with some characters left out. -/
theorem scrub_shorter (f : Nat → Byte) (a aj b bj s junk : List Byte) (x : Byte) (ha : a ≠ []) (hl : b.length < a.length) (hs : s.length + 17 < 2 ^ 64)
    (n : Nat) (hn : s.length < n) :
    ∃ r t, scrub (some f) ⟨a ++ aj, a.length⟩ ⟨b ++ bj, b.length⟩ n ⟨s ++ x :: junk, s.length⟩ = .ok (some t) ∧ Holds t r ∧ ¬a <:+: r ∧
      r.length ≤ s.length ∧ (b = [] → r.Sublist s) ∧ (¬a <:+: s → r = s) := by
  obtain ⟨r, j, ⟨h1, h2, h3, h4, h5⟩ | ⟨h1, h2⟩⟩ := scrub_ends (aj := aj) (bj := bj) (f := f) ha hl n s junk x hn hs
  · exact ⟨r, _, h1, ⟨rfl, List.prefix_append _ _⟩, h2, h3, h4, fun h => absurd h5 h⟩
  · exact ⟨s, _, h1, ⟨rfl, List.prefix_append _ _⟩, h2, Nat.le_refl _, fun _ => List.Sublist.refl _, fun _ => rfl⟩

example : scrub (some fun _ => 7) ⟨bytes! "../" ++ [], 3⟩ ⟨[] ++ [], 0⟩ 7 ⟨bytes! "....//" ++ [0], 6⟩ = .ok (some ⟨[0], 0⟩) := by decide +kernel

/-- **C246** If the replacement contains the pattern it never ends well: for every string with the pattern, even if memory is always granted. -/
theorem scrub_forever (f : Nat → Byte) (a aj b bj s junk : List Byte) (x : Byte) (ha : a ≠ []) (hab : a <:+: b) (hs : s.length + 1 < 2 ^ 64)
    (hi : a <:+: s) (n : Nat) (r : Option SP) :
    scrub (some f) ⟨a ++ aj, a.length⟩ ⟨b ++ bj, b.length⟩ n ⟨s ++ x :: junk, s.length⟩ ≠ .ok r :=
  scrub_never ha hab n s junk x hs hi r

example : bytes! "&" <:+: bytes! "&amp;" ∧ bytes! "&" <:+: bytes! "a & b" := by decide

end Ulz.Props

import Verif.Spec.Misc
import Verif.Props.Output
/-! Lemmas for op_printall and the descriptors of the file parser. -/
namespace Ulz.Misc
open Ulz.Output Ulz.Optparser Ulz.Optparser.Spec

theorem printLoop_spec {p : Op} {as : List (List Byte)} (h : Args p as) : ∀ fuel i, as.length - i < fuel →
    printLoop p fuel i = .ok (Spec.lines (as.drop i))
  | 0, i, hf => by omega
  | fuel + 1, i, hf => by
    unfold printLoop
    rw [h.1]
    by_cases hi : i < as.length
    · rw [if_pos hi]
      obtain ⟨h0, junk, h2⟩ := h.2 i as[i] (List.getElem?_eq_getElem hi)
      have : arg p i = .ok (as[i] ++ 0 :: junk) := by unfold arg; rw [h2]
      rw [this]
      simp only [ok_bind]
      rw [log_putc_spec h0]
      simp only [ok_bind]
      rw [printLoop_spec h fuel (i + 1) (by omega)]
      simp only [ok_bind, pure_eq_ok]
      rw [List.drop_eq_getElem_cons hi]
      rfl
    · rw [if_neg hi, List.drop_eq_nil_of_le (by omega)]
      rfl

theorem cycles_succ (pick : List Nat → Nat) (k : Nat) (fds : List Nat) (p : Fileparser.FP) :
    cycles pick (k + 1) fds p = cycles pick k (if 0 < pick fds then fds else pick fds :: fds) ⟨0, 0, p.buf, -1⟩ := by
  have : fp_close (pick fds :: fds) (some { p with file := (pick fds : Int), fpos := 0 }) =
      (if 0 < pick fds then fds else pick fds :: fds, some ⟨0, 0, p.buf, -1⟩, 0) := by
    unfold fp_close
    by_cases h : 0 < pick fds
    · have h' : (pick fds : Int) > 0 := by omega
      simp [h]
    · have h' : ¬ (pick fds : Int) > 0 := by omega
      simp [h]
  conv => lhs; unfold cycles
  simp only [fp_open]
  rw [this]

theorem cycles_spec {pick : List Nat → Nat} (hp : Spec.Lowest pick) : ∀ k fds p,
    cycles pick k fds p = if 0 < k ∧ 0 ∉ fds then 0 :: fds else fds
  | 0, fds, p => by simp [cycles]
  | k + 1, fds, p => by
    rw [cycles_succ]
    obtain ⟨h1, h2⟩ := hp fds
    by_cases h0 : 0 ∈ fds
    · have : 0 < pick fds := by
        rcases Nat.eq_zero_or_pos (pick fds) with h | h
        · rw [h] at h1; exact absurd h0 h1
        · exact h
      rw [if_pos this, cycles_spec hp k fds]
      simp [h0]
    · have : pick fds = 0 := by
        rcases Nat.eq_zero_or_pos (pick fds) with h | h
        · exact h
        · exact absurd (h2 0 h) h0
      rw [this, if_neg (by simp), cycles_spec hp k (0 :: fds)]
      simp [h0]

end Ulz.Misc

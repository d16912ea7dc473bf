import Verif.Proofs.Psp
/-! normalizepath_cstr for paths with a drive. -/
namespace Ulz.Props
open Ulz.Filelib.Spec Ulz.Psp.Spec

/-- C130: compiled for drives, an absolute path on a drive (or without one) is normalised like an absolute path without drive; the drive
    stays in front. Failure means that the path climbs above its root. Nothing is written behind the given length. -/
theorem psp_normalize_correct (d r junk out : List Byte) (hd : Drive d) (h0 : (0 : Byte) ∉ d ++ r) (h1 : r[0]? = some (ch '/'))
    (hl : (d ++ r).length + 1 ≤ out.length) :
    ∃ out', Psp.normalizepath_cstr (d ++ r ++ 0 :: junk) out = .ok (out', (normalize r).isSome) ∧ out'.length = out.length ∧
      ∀ x, normalize r = some x → onDrive d x ++ [0] <+: out' := by
  obtain ⟨out', k1, k2, k3⟩ := Psp.psp_good (junk := junk) hd h0 h1 (show (d ++ r).length < out.length from hl)
  refine ⟨out', k1, k2, fun x hx => ?_⟩
  obtain ⟨J, rfl⟩ := k3 x hx
  exact ⟨J, by simp⟩

example : ∃ out', Psp.normalizepath_cstr (bytes! "ms0:" ++ bytes! "/PSP/../a//b/." ++ [0]) (List.replicate 19 7) = .ok (out', true) ∧
    bytes! "ms0:/a/b" ++ [0] <+: out' := by
  obtain ⟨o, h1, _, h3⟩ := psp_normalize_correct (bytes! "ms0:") (bytes! "/PSP/../a//b/.") [] (List.replicate 19 7)
    ⟨by decide, by decide⟩ (by decide) rfl (by decide)
  exact ⟨o, h1, h3 (bytes! "/a/b") (by decide)⟩

/-- C130: every other path is refused: one without slash, or whose first slash follows something else than a colon. -/
theorem psp_normalize_refuses (s junk out : List Byte) (h0 : (0 : Byte) ∉ s) (hl : s.length + 1 ≤ out.length)
    (hb : ¬∃ d r : List Byte, s = d ++ r ∧ Drive d ∧ r[0]? = some (ch '/')) :
    ∃ out', Psp.normalizepath_cstr (s ++ 0 :: junk) out = .ok (out', false) ∧ out'.length = out.length := by
  obtain ⟨d, r, rfl, h2, h3⟩ := Psp.split_path s
  exact Psp.psp_bad h2 h3 h0 hl fun h => hb ⟨d, r, rfl, h.1, h.2⟩

theorem psp_drive_unique {d r d' r' : List Byte} (h : d ++ r = d' ++ r') (hd : ch '/' ∉ d) (hd' : ch '/' ∉ d')
    (hr : r = [] ∨ r[0]? = some (ch '/')) (hr' : r' = [] ∨ r'[0]? = some (ch '/')) : d = d' ∧ r = r' := by
  induction d generalizing d' with
  | nil =>
    cases d' with
    | nil => exact ⟨rfl, h⟩
    | cons c d' =>
      simp only [List.nil_append, List.cons_append] at h
      subst h
      simp at hr
      exact absurd (by simp [hr]) hd'
  | cons c d ih =>
    cases d' with
    | nil =>
      simp only [List.nil_append, List.cons_append] at h
      subst h
      simp at hr'
      exact absurd (by simp [hr']) hd
    | cons c' d' =>
      simp only [List.cons_append, List.cons.injEq] at h
      obtain ⟨e1, e2⟩ := ih h.2 (fun m => hd (List.mem_cons_of_mem _ m)) (fun m => hd' (List.mem_cons_of_mem _ m))
      exact ⟨by rw [h.1, e1], e2⟩

theorem psp_not_abs {s d0 r0 : List Byte} (hs : s = d0 ++ r0) (h1 : ch '/' ∉ d0) (h2 : r0 = [] ∨ r0[0]? = some (ch '/'))
    (h3 : ¬(Drive d0 ∧ r0[0]? = some (ch '/'))) : ¬∃ d r : List Byte, s = d ++ r ∧ Drive d ∧ r[0]? = some (ch '/') := by
  rintro ⟨d, r, e1, e2, e3⟩
  obtain ⟨rfl, rfl⟩ := psp_drive_unique (hs.symm.trans e1) h1 e2.1 h2 (.inr e3)
  exact h3 ⟨e2, e3⟩

example : ∃ out', Psp.normalizepath_cstr (bytes! "ms0/a:/" ++ [0]) (List.replicate 8 7) = .ok (out', false) ∧ out'.length = 8 :=
  psp_normalize_refuses (bytes! "ms0/a:/") [] (List.replicate 8 7) (by decide) (by decide)
    (psp_not_abs (d0 := bytes! "ms0") (r0 := bytes! "/a:/") rfl (by decide) (.inr rfl)
      (by rintro ⟨⟨_, h⟩, _⟩; revert h; decide))

/-- C131: normalising the result once more changes nothing, unless the result is the root of a drive: that lost its slash ("ms0:/"
    becomes "ms0:"), and is refused when it is normalised again. -/
theorem psp_normalize_again (d r x junk out : List Byte) (hd : Drive d) (h0 : (0 : Byte) ∉ d ++ r) (h1 : normalize r = some x)
    (hl : (onDrive d x).length + 1 ≤ out.length) :
    ∃ out', Psp.normalizepath_cstr (onDrive d x ++ 0 :: junk) out = .ok (out', decide ¬(d ≠ [] ∧ x = bytes! "/")) ∧
      (¬(d ≠ [] ∧ x = bytes! "/") → onDrive d x ++ [0] <+: out') := by
  simp only [List.mem_append, not_or] at h0
  have hx0 := Filelib.normalize_zero h0.2 h1
  have hx := Filelib.normalize_idem h1
  have hx1 : x[0]? = some (ch '/') := Decidable.byContradiction fun h => by rw [Filelib.normalize_rel h] at hx; cases hx
  by_cases hc : d ≠ [] ∧ x = bytes! "/"
  · have e : onDrive d x = d := if_pos hc
    rw [e] at hl ⊢
    obtain ⟨o, k1, k2⟩ := psp_normalize_refuses d junk out h0.1 hl
      (psp_not_abs (r0 := []) (by simp) hd.1 (.inl rfl) (by simp))
    exact ⟨o, by rw [k1, decide_eq_false (fun h => h hc)], fun h => absurd hc h⟩
  · have e : onDrive d x = d ++ x := if_neg hc
    rw [e] at hl ⊢
    obtain ⟨o, k1, k2, k3⟩ := psp_normalize_correct d x junk out hd
      (fun h => (List.mem_append.1 h).elim h0.1 hx0) hx1 hl
    refine ⟨o, by rw [k1, hx, decide_eq_true hc]; rfl, fun _ => ?_⟩
    rw [← e]
    exact k3 x hx

example : ∃ out', Psp.normalizepath_cstr (bytes! "ms0:" ++ 0 :: []) (List.replicate 5 7) = .ok (out', false) := by
  obtain ⟨o, h1, _⟩ := psp_normalize_again (bytes! "ms0:") (bytes! "/a/..") (bytes! "/") [] (List.replicate 5 7)
    ⟨by decide, by decide⟩ (by decide) (by decide) (by decide)
  exact ⟨o, h1⟩

end Ulz.Props

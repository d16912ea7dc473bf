import Verif.Spec.Psp
import Verif.Proofs.Filelib
/-! Lemmas for normalizepath_cstr with drives: the loop behind a drive does what it does without. -/
namespace Ulz.Psp
open Ulz.Filelib Ulz.Filelib.Spec Ulz.Psp.Spec Ulz.Stringptr.Spec

/-- The state of the loop behind the drive `d`. -/
def sh (d : List Byte) (S : St) : St := ⟨S.i + d.length, d ++ S.out, S.size + d.length⟩

theorem rd_sh (d p : List Byte) (i : Nat) : rd (d ++ p) (i + d.length) = rd p i := by
  unfold rd
  rw [List.getElem?_append_right (by omega), Nat.add_sub_cancel]

theorem wr_sh (d p : List Byte) (i : Nat) (c : Byte) : wr (d ++ p) (i + d.length) c = (wr p i c).map (d ++ ·) := by
  unfold wr
  simp only [List.length_append]
  by_cases h : i < p.length
  · rw [if_pos (by omega), if_pos h]
    simp only [Except.map]
    rw [List.set_append_right _ _ (by omega), Nat.add_sub_cancel]
  · rw [if_neg (by omega), if_neg h]
    rfl

theorem skip_fuel (path : List Byte) (m : Nat) : ∀ f i, path.length ≤ f + i → skip path (f + 1 + m) i = skip path (f + 1) i := by
  intro f
  induction f with
  | zero =>
    intro i h
    rw [show 0 + 1 + m = m + 1 by omega]
    rw [skip, skip]
    have : rd path (i + 1) = .error .oobRead := by
      unfold rd
      rw [List.getElem?_eq_none (by omega)]
    rw [this]
    rfl
  | succ f ih =>
    intro i h
    rw [show f + 1 + 1 + m = (f + 1 + m) + 1 by omega]
    rw [skip, ih (i + 1) (by omega)]
    conv => rhs; rw [skip]

theorem skip_sh (d p : List Byte) : ∀ f i, skip (d ++ p) f (i + d.length) = (skip p f i).map (· + d.length) := by
  intro f
  induction f with
  | zero => intro i; rfl
  | succ f ih =>
    intro i
    rw [skip, skip, show i + d.length + 1 = i + 1 + d.length by omega, rd_sh]
    cases rd p (i + 1) with
    | error u => rfl
    | ok c =>
      simp only [ok_bind]
      split
      · exact ih (i + 1)
      · rfl

theorem copy_sh (d p : List Byte) (S : St) : copy (d ++ p) (sh d S) = (copy p S).map (Option.map (sh d)) := by
  unfold copy sh
  simp only [rd_sh, wr_sh]
  cases rd p S.i with
  | error u => rfl
  | ok c =>
    simp only [ok_bind]
    cases wr S.out S.size c with
    | error u => rfl
    | ok o =>
      simp only [Except.map, ok_bind, pure_eq_ok, Option.map, sh]
      rw [show S.size + d.length + 1 = S.size + 1 + d.length by omega]

/-- The drive: not empty, without slash. -/
structure Ok (d : List Byte) : Prop where
  ne : d ≠ []
  noslash : ch '/' ∉ d

theorem Ok.pos {d : List Byte} (h : Ok d) : 0 < d.length := List.length_pos_iff.2 h.ne

theorem Ok.rd {d : List Byte} (h : Ok d) (p : List Byte) {i : Nat} (hi : i < d.length) : ∃ c, rd (d ++ p) i = .ok c ∧ c ≠ ch '/' := by
  refine ⟨d[i], ?_, fun e => h.noslash (e ▸ List.getElem_mem hi)⟩
  rw [rd_append_left hi, rd_ok hi]

theorem slash_sh {d : List Byte} (hd : Ok d) (p : List Byte) (S : St) : slash (d ++ p) (sh d S) = (slash p S).map (Option.map (sh d)) := by
  unfold slash
  have e : skip (d ++ p) ((d ++ p).length + 1) (sh d S).i = (skip p (p.length + 1) S.i).map (· + d.length) := by
    have := skip_fuel p d.length p.length S.i (by omega)
    rw [← this, List.length_append, show d.length + p.length + 1 = p.length + 1 + d.length by omega]
    exact skip_sh d p _ S.i
  rw [e]
  cases skip p (p.length + 1) S.i with
  | error u => rfl
  | ok i =>
    simp only [Except.map, ok_bind]
    have hc := copy_sh d p ⟨i, S.out, S.size⟩
    have hs : (⟨i + d.length, (sh d S).out, (sh d S).size⟩ : St) = sh d ⟨i, S.out, S.size⟩ := rfl
    rw [hs]
    have hp := hd.pos
    have n0 : (sh d S).size ≠ 0 := by simp only [sh]; omega
    rw [if_neg n0]
    by_cases h0 : S.size = 0
    · rw [if_pos h0]
      obtain ⟨c, c1, c2⟩ := hd.rd S.out (i := d.length - 1) (by omega)
      have : rd (sh d S).out ((sh d S).size - 1) = .ok c := by
        simp only [sh, h0, Nat.zero_add]
        exact c1
      rw [this, ok_bind, if_pos c2]
      exact hc
    · rw [if_neg h0]
      have : rd (sh d S).out ((sh d S).size - 1) = rd S.out (S.size - 1) := by
        simp only [sh]
        rw [show S.size + d.length - 1 = S.size - 1 + d.length by omega, rd_sh]
      rw [this]
      cases rd S.out (S.size - 1) with
      | error u => rfl
      | ok c =>
        simp only [ok_bind]
        split
        · exact hc
        · rfl

theorem back_drive {d : List Byte} (hd : Ok d) (p : List Byte) : ∀ k, k < d.length → back (d ++ p) k = .ok 0 := by
  intro k
  induction k with
  | zero => intro _; rfl
  | succ k ih =>
    intro hk
    rw [back]
    obtain ⟨c, c1, c2⟩ := hd.rd p hk
    rw [c1, ok_bind, if_pos c2]
    exact ih (by omega)

/-- Going back behind a drive ends where it ends without one, or, if there is no slash, at the start of the drive. -/
theorem back_sh {d : List Byte} (hd : Ok d) (p : List Byte) : ∀ k, (∃ j c, back p k = .ok j ∧ rd p j = .ok c ∧
      (if c = ch '/' then back (d ++ p) (k + d.length) = .ok (j + d.length) else back (d ++ p) (k + d.length) = .ok 0)) ∨
    (∃ u, (back p k >>= fun j => rd p j >>= fun c => pure (j, c)) = .error u ∧ back (d ++ p) (k + d.length) = .error u) := by
  intro k
  have hp := hd.pos
  induction k with
  | zero =>
    have e : back (d ++ p) (0 + d.length) = (rd p 0 >>= fun c => if c ≠ ch '/' then back (d ++ p) (d.length - 1) else pure d.length) := by
      rw [Nat.zero_add]
      obtain ⟨n, hn⟩ : ∃ n, d.length = n + 1 := ⟨d.length - 1, by omega⟩
      have := rd_sh d p 0
      rw [Nat.zero_add] at this
      rw [hn] at this ⊢
      rw [back, this]
      rfl
    cases h : rd p 0 with
    | error u =>
      right
      refine ⟨u, ?_, ?_⟩
      · simp only [back, pure_eq_ok, ok_bind, h]; rfl
      · rw [e, h]; rfl
    | ok c =>
      left
      refine ⟨0, c, rfl, h, ?_⟩
      rw [e, h, ok_bind]
      by_cases hc : c = ch '/'
      · rw [if_pos hc, if_neg (by simpa using hc), Nat.zero_add]; rfl
      · rw [if_neg hc, if_pos hc, back_drive hd p _ (by omega)]
  | succ k ih =>
    have e : back (d ++ p) (k + 1 + d.length) = (rd p (k + 1) >>= fun c => if c ≠ ch '/' then back (d ++ p) (k + d.length) else pure (k + 1 + d.length)) := by
      have := rd_sh d p (k + 1)
      rw [show k + 1 + d.length = k + d.length + 1 by omega] at this ⊢
      rw [back, this]
    cases h : rd p (k + 1) with
    | error u =>
      right
      refine ⟨u, ?_, ?_⟩
      · rw [back, h]; rfl
      · rw [e, h]; rfl
    | ok c =>
      rw [e, back, h]
      simp only [ok_bind]
      by_cases hc : c = ch '/'
      · left
        refine ⟨k + 1, c, by rw [if_neg (by simpa using hc)]; rfl, h, ?_⟩
        rw [if_pos hc, if_neg (by simpa using hc)]; rfl
      · simp only [ne_eq, hc, not_false_eq_true, if_true]
        exact ih

theorem popC_sh {d : List Byte} (hd : Ok d) (S : St) : popC (sh d S) = (popC S).map (Option.map (sh d)) := by
  unfold popC
  have hp := hd.pos
  rw [if_neg (show (sh d S).size ≠ 0 by simp only [sh]; omega)]
  by_cases h0 : S.size = 0
  · rw [if_pos h0]
    have e : back (sh d S).out ((sh d S).size - 1) = .ok 0 := by
      simp only [sh, h0, Nat.zero_add]
      exact back_drive hd _ _ (by omega)
    obtain ⟨c, c1, c2⟩ := hd.rd S.out (i := 0) hp
    rw [e, ok_bind]
    have : rd (sh d S).out 0 = .ok c := c1
    rw [this, ok_bind, if_neg c2]
    rfl
  · rw [if_neg h0]
    have e0 : back (sh d S).out ((sh d S).size - 1) = back (d ++ S.out) (S.size - 1 + d.length) := by
      simp only [sh]
      rw [show S.size + d.length - 1 = S.size - 1 + d.length by omega]
    rw [e0]
    rcases back_sh hd S.out (S.size - 1) with ⟨j, c, h1, h2, h3⟩ | ⟨u, h1, h2⟩
    · rw [h1]
      by_cases hc : c = ch '/'
      · rw [if_pos hc] at h3
        rw [h3]
        simp only [ok_bind]
        have : rd (sh d S).out (j + d.length) = .ok c := by rw [← h2]; exact rd_sh d S.out j
        rw [this, h2]
        simp only [ok_bind]
        rw [if_pos hc, if_pos hc]
        simp only [pure_eq_ok, Except.map, Option.map, sh]
        rw [show S.i + d.length + 2 = S.i + 2 + d.length by omega, show j + d.length + 1 = j + 1 + d.length by omega]
      · rw [if_neg hc] at h3
        rw [h3]
        obtain ⟨c', c1, c2⟩ := hd.rd S.out (i := 0) hp
        have : rd (sh d S).out 0 = .ok c' := c1
        simp only [ok_bind]
        rw [this, h2]
        simp only [ok_bind]
        rw [if_neg c2, if_neg hc]
        rfl
    · rw [h2]
      cases hb : back S.out (S.size - 1) with
      | error v =>
        rw [hb] at h1
        injection h1 with h1
        subst h1
        rfl
      | ok j =>
        rw [hb] at h1
        simp only [ok_bind] at h1 ⊢
        cases hr : rd S.out j with
        | error v =>
          rw [hr] at h1
          injection h1 with h1
          subst h1
          rfl
        | ok c => rw [hr] at h1; cases h1

theorem dotC_sh {d : List Byte} (hd : Ok d) (p : List Byte) (S : St) : dotC (d ++ p) (sh d S) = (dotC p S).map (Option.map (sh d)) := by
  unfold dotC
  have e1 : rd (d ++ p) ((sh d S).i + 1) = rd p (S.i + 1) := by
    simp only [sh]; rw [show S.i + d.length + 1 = S.i + 1 + d.length by omega, rd_sh]
  have e2 : rd (d ++ p) ((sh d S).i + 2) = rd p (S.i + 2) := by
    simp only [sh]; rw [show S.i + d.length + 2 = S.i + 2 + d.length by omega, rd_sh]
  have e3 : ∀ j, (⟨(sh d S).i + j, (sh d S).out, (sh d S).size + 1⟩ : St) = sh d ⟨S.i + j, S.out, S.size + 1⟩ := by
    intro j
    simp only [sh]
    rw [show S.i + d.length + j = S.i + j + d.length by omega, show S.size + d.length + 1 = S.size + 1 + d.length by omega]
  have e4 := e3 0
  simp only [Nat.add_zero] at e4
  rw [e1, e2]
  cases rd p (S.i + 1) with
  | error u => rfl
  | ok c =>
    simp only [ok_bind]
    split
    · cases rd p (S.i + 2) with
      | error u => rfl
      | ok c' =>
        simp only [ok_bind]
        split
        · exact popC_sh hd S
        · rw [e4]; exact copy_sh d p _
    · split
      · rw [e3 1]; rfl
      · split
        · rw [e4]; rfl
        · rw [e4]; exact copy_sh d p _

theorem stepC_sh {d : List Byte} (hd : Ok d) (p : List Byte) (S : St) (h : rd p S.i = .ok (ch '/') ∨ (S.i ≠ 0 ∧ S.size ≠ 0)) :
    stepC (d ++ p) (sh d S) = (stepC p S).map (Option.map (sh d)) := by
  unfold stepC
  have hp := hd.pos
  have e0 : rd (d ++ p) (sh d S).i = rd p S.i := rd_sh d p S.i
  rw [e0]
  cases hc : rd p S.i with
  | error u => rfl
  | ok c =>
    simp only [ok_bind]
    by_cases h1 : c = ch '/'
    · rw [if_pos h1, if_pos h1]; exact slash_sh hd p S
    · rw [if_neg h1, if_neg h1]
      have hS : S.i ≠ 0 ∧ S.size ≠ 0 := by
        rcases h with h | h
        · rw [hc] at h; injection h with h; exact absurd h h1
        · exact h
      by_cases h2 : c = ch '.'
      · rw [if_pos h2, if_pos h2, if_neg (by simp only [sh]; omega), if_neg (by omega)]
        have e1 : rd (d ++ p) ((sh d S).i - 1) = rd p (S.i - 1) := by
          simp only [sh]; rw [show S.i + d.length - 1 = S.i - 1 + d.length by omega, rd_sh]
        have e2 : rd (sh d S).out ((sh d S).size - 1) = rd S.out (S.size - 1) := by
          simp only [sh]; rw [show S.size + d.length - 1 = S.size - 1 + d.length by omega, rd_sh]
        have e3 : (⟨(sh d S).i, (sh d S).out, (sh d S).size - 1⟩ : St) = sh d ⟨S.i, S.out, S.size - 1⟩ := by
          simp only [sh]; rw [show S.size + d.length - 1 = S.size - 1 + d.length by omega]
        rw [e1, e2, e3]
        cases rd p (S.i - 1) with
        | error u => rfl
        | ok c1 =>
          simp only [ok_bind]
          split
          · cases rd S.out (S.size - 1) with
            | error u => rfl
            | ok c2 =>
              simp only [ok_bind]
              split
              · exact dotC_sh hd p _
              · exact copy_sh d p S
          · exact copy_sh d p S
      · rw [if_neg h2, if_neg h2]; exact copy_sh d p S

theorem copy_pos {p : List Byte} {S S' : St} (h : copy p S = .ok (some S')) : S'.size ≠ 0 := by
  unfold copy at h
  cases h1 : rd p S.i with
  | error u => rw [h1] at h; cases h
  | ok c =>
    rw [h1] at h
    simp only [ok_bind] at h
    cases h2 : wr S.out S.size c with
    | error u => rw [h2] at h; cases h
    | ok o =>
      rw [h2] at h
      cases h
      simp

theorem step_pos {p : List Byte} {S S' : St} (h : stepC p S = .ok (some S')) : S'.size ≠ 0 := by
  unfold stepC at h
  cases h1 : rd p S.i with
  | error u => rw [h1] at h; cases h
  | ok c =>
    rw [h1] at h
    simp only [ok_bind] at h
    split at h
    · unfold slash at h
      cases h2 : skip p (p.length + 1) S.i with
      | error u => rw [h2] at h; cases h
      | ok i =>
        rw [h2] at h
        simp only [ok_bind] at h
        split at h
        · exact copy_pos h
        · rename_i hs
          cases h3 : rd S.out (S.size - 1) with
          | error u => rw [h3] at h; cases h
          | ok c2 =>
            rw [h3] at h
            simp only [ok_bind] at h
            split at h
            · exact copy_pos h
            · cases h; exact hs
    · split at h
      · split at h
        · cases h
        · cases h2 : rd p (S.i - 1) with
          | error u => rw [h2] at h; cases h
          | ok c1 =>
            rw [h2] at h
            simp only [ok_bind] at h
            split at h
            · cases h3 : rd S.out (S.size - 1) with
              | error u => rw [h3] at h; cases h
              | ok c2 =>
                rw [h3] at h
                simp only [ok_bind] at h
                split at h
                · unfold dotC at h
                  simp only at h
                  cases h4 : rd p (S.i + 1) with
                  | error u => rw [h4] at h; cases h
                  | ok c3 =>
                    rw [h4] at h
                    simp only [ok_bind] at h
                    split at h
                    · cases h5 : rd p (S.i + 2) with
                      | error u => rw [h5] at h; cases h
                      | ok c4 =>
                        rw [h5] at h
                        simp only [ok_bind] at h
                        split at h
                        · unfold popC at h
                          simp only at h
                          split at h
                          · cases h
                          · cases h6 : back S.out (S.size - 1 - 1) with
                            | error u => rw [h6] at h; cases h
                            | ok j =>
                              rw [h6] at h
                              simp only [ok_bind] at h
                              cases h7 : rd S.out j with
                              | error u => rw [h7] at h; cases h
                              | ok c5 =>
                                rw [h7] at h
                                simp only [ok_bind] at h
                                split at h
                                · cases h; simp
                                · cases h
                        · exact copy_pos h
                    · split at h
                      · cases h; simp
                      · split at h
                        · cases h; simp
                        · exact copy_pos h
                · exact copy_pos h
            · exact copy_pos h
      · exact copy_pos h

theorem loopV_sh {d : List Byte} (hd : Ok d) (p : List Byte) : ∀ fuel S, (rd p S.i = .ok (ch '/') ∨ (S.i ≠ 0 ∧ S.size ≠ 0)) →
    loopV (d ++ p) fuel (sh d S) = (loopV p fuel S).map (Option.map fun x => (d ++ x.1, x.2 + d.length)) := by
  intro fuel
  induction fuel with
  | zero => intro S _; rfl
  | succ fuel ih =>
    intro S h
    rw [loopV, loopV]
    have e0 : ∀ T : St, rd (d ++ p) (sh d T).i = rd p T.i := fun T => rd_sh d p T.i
    rw [e0]
    cases hc : rd p S.i with
    | error u => rfl
    | ok c =>
      simp only [ok_bind]
      split
      · rw [stepC_sh hd p S h]
        cases hs : stepC p S with
        | error u => rfl
        | ok r =>
          cases r with
          | none => rfl
          | some S' =>
            simp only [Except.map, ok_bind, Option.map]
            rw [e0]
            cases hc' : rd p S'.i with
            | error u => rfl
            | ok c' =>
              simp only [ok_bind]
              split
              · rfl
              · have := ih ⟨S'.i + 1, S'.out, S'.size⟩ (Or.inr ⟨by simp, (step_pos hs : S'.size ≠ 0)⟩)
                have e : (⟨(sh d S').i + 1, (sh d S').out, (sh d S').size⟩ : St) = sh d ⟨S'.i + 1, S'.out, S'.size⟩ := by
                  simp only [sh]; rw [show S'.i + d.length + 1 = S'.i + 1 + d.length by omega]
                rw [e]
                exact this
      · rfl

/-- The loop at the start of an absolute path, with fuel to spare. -/
theorem loopV_run {s junk out : List Byte} (h0 : (0 : Byte) ∉ s) (h1 : s[0]? = some (ch '/')) (hs : s.length < out.length) {fuel : Nat}
    (hf : s.length < fuel) : ∃ r, loopV (s ++ 0 :: junk) fuel ⟨0, out, 0⟩ = .ok r ∧ Done s out.length (abs [] [] (s.drop 1)) r := by
  obtain ⟨fuel, rfl⟩ : ∃ n, fuel = n + 1 := ⟨fuel - 1, by omega⟩
  obtain ⟨S', a1, a2, a3, a4, a5⟩ := first_step (junk := junk) (out := out) h1 hs
  rw [loopV, rd_text h1, ok_bind, if_pos (by decide), stepC_eq _ _ (by simp), a1, ok_bind]
  simp only
  rw [rd_append_left a2, rd_ok a2, ok_bind, if_neg (fun h : s[S'.i] = 0 => h0 (h ▸ List.getElem_mem a2))]
  obtain ⟨r, b1, b2⟩ := loopV_spec (junk := junk) h0 fuel _ [] [] a5 (by simp only; omega) (by simp only; omega)
    (by simp only; omega)
  refine ⟨r, b1, ?_⟩
  rw [a4, ← a3]
  exact b2

theorem finish_sh {s d : List Byte} (hd : Ok d) {len st p out size} (h : Done s len (some (st, p)) (some (out, size)))
    (hl : s.length < len) : ∃ J n, finish (d ++ out) (size + d.length) =
      .ok (onDrive d (ch '/' :: join [ch '/'] (push (st, p))) ++ 0 :: J, n) ∧
      (onDrive d (ch '/' :: join [ch '/'] (push (st, p))) ++ 0 :: J).length = d.length + len := by
  obtain ⟨J, k1, k2, k3⟩ := finish_spec h hl
  obtain ⟨h1, h2, ⟨J0, h3⟩, h4, h5⟩ := h
  have ht := push_text h5
  have hp := hd.pos
  unfold finish at k1 ⊢
  rw [if_pos (show 1 < size + d.length by rw [h4]; simp [render]; omega)]
  by_cases hz : 1 < size
  · rw [if_pos hz] at k1
    rw [show size + d.length - 1 = size - 1 + d.length by omega, rd_sh, wr_sh, wr_sh]
    have hne : ¬(d ≠ [] ∧ ch '/' :: join [ch '/'] (push (st, p)) = [ch '/']) := by
      rintro ⟨_, e⟩
      by_cases hc : p = [] ∧ st ≠ []
      · obtain ⟨rfl, hst⟩ := hc
        have : join [ch '/'] (push (st, [])) = [] := by simpa using e
        rw [push, if_pos rfl] at this
        match st, hst, this with
        | a :: st, _, this =>
          have ha := h5 a (by simp [push])
          match st, this with
          | [], this => exact ha.1 (by simpa [join] using this)
          | b :: st, this => simp [join] at this
      · rw [if_neg hc, e] at ht
        rw [h4, ht] at hz
        simp at hz
    rw [onDrive, if_neg hne]
    cases hr : rd out (size - 1) with
    | error u => rw [hr] at k1; cases k1
    | ok c =>
      rw [hr] at k1
      simp only [ok_bind] at k1 ⊢
      split
      · rename_i hc
        rw [if_pos hc] at k1
        cases hw : wr out (size - 1) 0 with
        | error u => rw [hw] at k1; cases k1
        | ok o =>
          rw [hw] at k1
          simp only [ok_bind, pure_eq_ok, Except.ok.injEq, Prod.mk.injEq] at k1
          refine ⟨J, _, by simp only [Except.map, ok_bind, pure_eq_ok, k1.1, List.append_assoc]; rfl, ?_⟩
          rw [List.append_assoc, List.length_append, k2]
      · rename_i hc
        rw [if_neg hc] at k1
        cases hw : wr out size 0 with
        | error u => rw [hw] at k1; cases k1
        | ok o =>
          rw [hw] at k1
          simp only [ok_bind, pure_eq_ok, Except.ok.injEq, Prod.mk.injEq] at k1
          refine ⟨J, _, by simp only [Except.map, ok_bind, pure_eq_ok, k1.1, List.append_assoc]; rfl, ?_⟩
          rw [List.append_assoc, List.length_append, k2]
  · have hs1 : size = 1 := by have := render_pos st; rw [List.length_append] at h4; omega
    have hr : render st ++ p = [ch '/'] := by
      obtain ⟨t, ht'⟩ : ∃ t, render st ++ p = ch '/' :: t := ⟨_, rfl⟩
      rw [ht', hs1] at h4
      rw [ht', List.length_eq_zero_iff.1 (show t.length = 0 by simpa using h4.symm)]
    have hX : ch '/' :: join [ch '/'] (push (st, p)) = [ch '/'] := by
      rw [hr] at ht
      split at ht
      · simp at ht
      · exact ht.symm
    rw [onDrive, if_pos ⟨hd.ne, hX⟩, hs1, show 1 + d.length - 1 = 0 + d.length by omega, rd_sh, wr_sh]
    rw [hr] at h3
    subst h3
    exact ⟨J0, _, rfl, by simp at h1 ⊢; omega⟩

theorem drive_spec {d rest : List Byte} {x : Byte} (hx : x = 0 ∨ x = ch '/') : ∀ u t fuel out, d = t ++ u → ch '/' ∉ u →
    (0 : Byte) ∉ u → t <+: out → d.length < out.length → u.length < fuel →
    ∃ J, drive (d ++ x :: rest) fuel t.length out =
        .ok (d ++ J, if x = 0 ∨ d = [] ∨ d.getLast? = some (ch ':') then some d.length else none) ∧ (d ++ J).length = out.length := by
  intro u
  induction u with
  | nil =>
    intro t fuel out hd _ _ ho hl hf
    rw [List.append_nil] at hd
    subst hd
    obtain ⟨fuel, rfl⟩ : ∃ n, fuel = n + 1 := ⟨fuel - 1, by simp at hf; omega⟩
    obtain ⟨J, rfl⟩ := ho
    have e : rd (d ++ x :: rest) d.length = .ok x := by simp [rd]
    rw [drive, e, ok_bind]
    rcases hx with rfl | rfl
    · rw [if_neg (by simp)]
      exact ⟨J, by rw [if_pos (.inl rfl)]; rfl, rfl⟩
    · rw [if_pos (by decide)]
      obtain ⟨y, J, rfl⟩ : ∃ y J', J = y :: J' := by
        cases J with
        | nil => simp at hl
        | cons y J => exact ⟨y, J, rfl⟩
      rw [wr_append rfl, ok_bind, if_pos rfl]
      refine ⟨ch '/' :: J, ?_, by simp⟩
      have n0 : ch '/' ≠ 0 := by decide
      by_cases hz : d = []
      · subst hz
        rw [if_neg (by simp), if_pos (by simp)]
        rfl
      · have hp : 0 < d.length := List.length_pos_iff.2 hz
        rw [if_pos hp, rd_append_left (by omega), rd_ok (by omega), ok_bind, List.getLast?_eq_getElem?,
          List.getElem?_eq_getElem (by omega)]
        simp only [n0, hz, false_or, Option.some.injEq]
        by_cases hc : d[d.length - 1] = ch ':'
        · rw [if_neg (by simpa using hc), if_pos hc]; rfl
        · rw [if_pos hc, if_neg hc]; rfl
  | cons c u ih =>
    intro t fuel out hd hs h0 ho hl hf
    obtain ⟨fuel, rfl⟩ : ∃ n, fuel = n + 1 := ⟨fuel - 1, by simp at hf; omega⟩
    obtain ⟨J, rfl⟩ := ho
    have e : rd (d ++ x :: rest) t.length = .ok c := by simp [rd, hd]
    obtain ⟨y, J, rfl⟩ : ∃ y J', J = y :: J' := by
      cases J with
      | nil => rw [hd] at hl; simp at hl; omega
      | cons y J => exact ⟨y, J, rfl⟩
    rw [drive, e, ok_bind, if_pos (fun h => h0 (by simp [h])), wr_append rfl, ok_bind, if_neg (fun h => hs (by simp [h]))]
    have := ih (t ++ [c]) fuel (t ++ c :: J) (by simp [hd]) (fun h => hs (List.mem_cons_of_mem _ h))
      (fun h => h0 (List.mem_cons_of_mem _ h)) ⟨J, by simp⟩ (by simpa using hl) (by simp at hf; omega)
    simpa using this

/-- A path is a drive part and either ends there or goes on with a slash. -/
theorem split_path (s : List Byte) : ∃ d r, s = d ++ r ∧ ch '/' ∉ d ∧ (r = [] ∨ r[0]? = some (ch '/')) := by
  induction s with
  | nil => exact ⟨[], [], rfl, by simp, .inl rfl⟩
  | cons c s ih =>
    by_cases hc : c = ch '/'
    · exact ⟨[], c :: s, rfl, by simp, .inr (by simp [hc])⟩
    · obtain ⟨d, r, h1, h2, h3⟩ := ih
      refine ⟨c :: d, r, by rw [h1]; rfl, ?_, h3⟩
      simp only [List.mem_cons, not_or]
      exact ⟨fun h => hc h.symm, h2⟩

theorem psp_good {d r junk out : List Byte} (hd : Drive d) (h0 : (0 : Byte) ∉ d ++ r) (h1 : r[0]? = some (ch '/'))
    (hl : (d ++ r).length < out.length) :
    ∃ out', Psp.normalizepath_cstr (d ++ r ++ 0 :: junk) out = .ok (out', (normalize r).isSome) ∧ out'.length = out.length ∧
      ∀ x, normalize r = some x → ∃ J, out' = onDrive d x ++ 0 :: J := by
  obtain ⟨r', rfl⟩ : ∃ r', r = ch '/' :: r' := by
    cases r with
    | nil => simp at h1
    | cons c r' => exact ⟨r', by simp at h1; rw [h1]⟩
  simp only [List.mem_append, not_or] at h0
  unfold Psp.normalizepath_cstr
  obtain ⟨J, e1, e2⟩ := drive_spec (d := d) (rest := r' ++ 0 :: junk) (x := ch '/') (.inr rfl) d []
    ((d ++ ch '/' :: r' ++ 0 :: junk).length + 1) out rfl hd.1 h0.1 List.nil_prefix (by simp at hl; omega) (by simp; omega)
  rw [if_pos (.inr hd.2)] at e1
  have e3 : d ++ ch '/' :: r' ++ 0 :: junk = d ++ (ch '/' :: r' ++ 0 :: junk) := List.append_assoc ..
  have e4 : rd (d ++ (ch '/' :: r' ++ 0 :: junk)) d.length = .ok (ch '/') := by simp [rd]
  have e5 : drive (d ++ ch '/' :: r' ++ 0 :: junk) ((d ++ ch '/' :: r' ++ 0 :: junk).length + 1) 0 out = .ok (d ++ J, some d.length) := by
    rw [← e1]
    simp only [List.append_assoc, List.cons_append, List.length_nil]
  rw [e5, ok_bind]
  simp only
  rw [e3, e4, ok_bind, if_neg (by simp)]
  have hJ : (ch '/' :: r').length < J.length := by
    simp only [List.length_append] at hl e2; omega
  obtain ⟨q, b1, b2⟩ := loopV_run (s := ch '/' :: r') (junk := junk) (out := J) h0.2 h1 hJ
    (fuel := (d ++ (ch '/' :: r' ++ 0 :: junk)).length + 1) (by simp; omega)
  rw [abs_normalize _ h1]
  generalize abs [] [] ((ch '/' :: r').drop 1) = a at b2 ⊢
  by_cases hz : d = []
  · subst hz
    simp only [List.nil_append, List.length_nil] at b1 ⊢
    have b3 := loopC_of _ _ _ b1
    simp only [List.nil_append] at e2
    match a, q, b2 with
    | none, none, _ =>
      obtain ⟨o', o1, o2⟩ := b3
      rw [o1, ok_bind]
      exact ⟨o', rfl, o2.trans e2, by simp⟩
    | some (st, p), some (out1, size), b2 =>
      obtain ⟨K, c1, c2, c3⟩ := finish_spec b2 hJ
      simp only at b3
      rw [b3]
      simp only [c1, ok_bind, Option.map_some]
      refine ⟨_, rfl, by rw [c2, e2], fun x hx => ⟨K, ?_⟩⟩
      rw [← Option.some.inj hx, onDrive, if_neg (by simp), List.nil_append]
    | none, some _, b2 => exact b2.elim
    | some _, none, b2 => exact b2.elim
  · have hk : Ok d := ⟨hz, hd.1⟩
    have e6 : (⟨d.length, d ++ J, d.length⟩ : St) = sh d ⟨0, J, 0⟩ := by simp [sh]
    have b4 := loopV_sh hk (ch '/' :: r' ++ 0 :: junk) ((d ++ (ch '/' :: r' ++ 0 :: junk)).length + 1) ⟨0, J, 0⟩ (.inl (by simp [rd]))
    rw [b1] at b4
    have b3 := loopC_of _ _ _ b4
    rw [e6]
    match a, q, b2 with
    | none, none, _ =>
      obtain ⟨o', o1, o2⟩ := b3
      rw [o1, ok_bind]
      exact ⟨o', rfl, o2.trans (by simpa [sh] using e2), by simp⟩
    | some (st, p), some (out1, size), b2 =>
      obtain ⟨K, n, c1, c2⟩ := finish_sh hk b2 hJ
      simp only [Option.map] at b3
      rw [b3]
      simp only [c1, ok_bind, Option.map_some]
      refine ⟨_, rfl, by rw [c2, ← e2, List.length_append], fun x hx => ⟨K, ?_⟩⟩
      rw [← Option.some.inj hx]
    | none, some _, b2 => exact b2.elim
    | some _, none, b2 => exact b2.elim

theorem psp_bad {d r junk out : List Byte} (hs : ch '/' ∉ d) (hr : r = [] ∨ r[0]? = some (ch '/')) (h0 : (0 : Byte) ∉ d ++ r)
    (hl : (d ++ r).length < out.length) (hb : ¬(Drive d ∧ r[0]? = some (ch '/'))) :
    ∃ out', Psp.normalizepath_cstr (d ++ r ++ 0 :: junk) out = .ok (out', false) ∧ out'.length = out.length := by
  simp only [List.mem_append, not_or] at h0
  unfold Psp.normalizepath_cstr
  rcases hr with rfl | hr
  · obtain ⟨J, e1, e2⟩ := drive_spec (d := d) (rest := junk) (x := 0) (.inl rfl) d []
      ((d ++ [] ++ 0 :: junk).length + 1) out rfl hs h0.1 List.nil_prefix (by simp at hl; omega) (by simp; omega)
    rw [if_pos (.inl rfl)] at e1
    have e4 : rd (d ++ [] ++ 0 :: junk) d.length = .ok 0 := by simp [rd]
    have e5 : drive (d ++ [] ++ 0 :: junk) ((d ++ [] ++ 0 :: junk).length + 1) 0 out = .ok (d ++ J, some d.length) := by
      rw [← e1]; simp only [List.append_nil, List.length_nil]
    rw [e5, ok_bind]
    simp only
    rw [e4, ok_bind, if_pos (by decide)]
    exact ⟨_, rfl, e2⟩
  · obtain ⟨r', rfl⟩ : ∃ r', r = ch '/' :: r' := by
      cases r with
      | nil => simp at hr
      | cons c r' => exact ⟨r', by simp at hr; rw [hr]⟩
    obtain ⟨J, e1, e2⟩ := drive_spec (d := d) (rest := r' ++ 0 :: junk) (x := ch '/') (.inr rfl) d []
      ((d ++ ch '/' :: r' ++ 0 :: junk).length + 1) out rfl hs h0.1 List.nil_prefix (by simp at hl; omega) (by simp; omega)
    have n0 : ch '/' ≠ 0 := by decide
    rw [if_neg (fun h => h.elim n0 fun h => hb ⟨⟨hs, h⟩, hr⟩)] at e1
    have e5 : drive (d ++ ch '/' :: r' ++ 0 :: junk) ((d ++ ch '/' :: r' ++ 0 :: junk).length + 1) 0 out = .ok (d ++ J, none) := by
      rw [← e1]
      simp only [List.append_assoc, List.cons_append, List.length_nil]
    rw [e5, ok_bind]
    exact ⟨_, rfl, e2⟩

end Ulz.Psp

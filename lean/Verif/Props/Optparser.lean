import Verif.Proofs.Optparser
/-! Property C69: the option parser. -/
namespace Ulz.Props
open Ulz.Optparser Ulz.Optparser.Spec
open Ulz.Stringptr (SP)
open Ulz.Stringptr.Spec (Holds)

/-- C69: for every argument vector and every name that is not empty, has no `=` in it and does not start with a dash,
    `op_get` points to the value given by the first argument that gives one, and is NULL if there is none. -/
theorem op_get_correct (p : Op) (as : List (List Byte)) (h : Args p as) (name jn : List Byte) (hne : name ≠ []) (h0 : 0 ∉ name)
    (heq : ch '=' ∉ name) (hd : name.head? ≠ some (ch '-')) :
    (∃ k r, op_get p ⟨name ++ 0 :: jn, name.length⟩ = .ok (some r) ∧ 1 ≤ k ∧ Gives as name k r ∧
      ∀ j, 1 ≤ j → j < k → ∀ r, ¬Gives as name j r) ∨
    (op_get p ⟨name ++ 0 :: jn, name.length⟩ = .ok none ∧ ∀ j, 1 ≤ j → ∀ r, ¬Gives as name j r) :=
  getLoop_spec h hne h0 heq hd _ 1 (by omega) (by omega)

/-- C69: an argument gives at most one value, so the result is determined by the arguments. -/
theorem gives_unique (as : List (List Byte)) (name : List Byte) (heq : ch '=' ∉ name) (hd : name.head? ≠ some (ch '-')) (i : Nat)
    (r r' : Nat × Nat) (h : Gives as name i r) (h' : Gives as name i r') : r = r' := by
  obtain ⟨a, ha, h⟩ := h
  obtain ⟨a', ha', h'⟩ := h'
  rw [ha] at ha'
  injection ha' with ha'
  subst ha'
  have contra : ∀ v, Opt name a (ch '=' :: v) → ¬Opt name a [] := by
    intro v h1 h2
    have := ((opt_iff hd).1 h1).2.symm.trans ((opt_iff hd).1 h2).2
    simp at this
  rcases h with ⟨v, hv, rfl⟩ | ⟨hv, _, rfl⟩ <;> rcases h' with ⟨v', hv', rfl⟩ | ⟨hv', _, rfl⟩
  · have := ((opt_iff hd).1 hv).2.symm.trans ((opt_iff hd).1 hv').2
    rw [(split_unique this heq heq).2]
  · exact absurd hv' (contra v hv)
  · exact absurd hv (contra v' hv')
  · rfl

example : Args ⟨4, [bytes! "prog" ++ [0], bytes! "--out=x" ++ [0], bytes! "-n" ++ [0], bytes! "5" ++ [0]]⟩
    [bytes! "prog", bytes! "--out=x", bytes! "-n", bytes! "5"] := by
  refine ⟨rfl, ?_⟩
  intro i a h
  match i, h with
  | 0, h => injection h with h; subst h; exact ⟨by decide, [], rfl⟩
  | 1, h => injection h with h; subst h; exact ⟨by decide, [], rfl⟩
  | 2, h => injection h with h; subst h; exact ⟨by decide, [], rfl⟩
  | 3, h => injection h with h; subst h; exact ⟨by decide, [], rfl⟩
  | i + 4, h => simp at h

example : Gives [bytes! "prog", bytes! "--out=x", bytes! "-n", bytes! "5"] (bytes! "out") 1 (1, 6) ∧
    Gives [bytes! "prog", bytes! "--out=x", bytes! "-n", bytes! "5"] (bytes! "n") 2 (3, 0) :=
  ⟨⟨_, rfl, Or.inl ⟨bytes! "x", Or.inr ⟨by decide, rfl⟩, rfl⟩⟩, ⟨_, rfl, Or.inr ⟨Or.inl rfl, by decide, rfl⟩⟩⟩

/-- C69: the empty name is not a name: for the argument `-` the result points behind the terminator. -/
theorem op_get_empty (prog : List Byte) (rest : List (List Byte)) (jn : List Byte) (argc : Nat) (h : 1 < argc) :
    op_get ⟨argc, prog :: (bytes! "-" ++ [0]) :: rest⟩ ⟨0 :: jn, 0⟩ = .ok (some (1, 2)) := by
  unfold op_get
  rw [getLoop, if_pos h]
  have e : getRound ⟨argc, prog :: (bytes! "-" ++ [0]) :: rest⟩ ⟨0 :: jn, 0⟩ 1 = .ok (some (1, 2)) := by
    unfold getRound arg
    simp only [List.getElem?_cons_succ, List.getElem?_cons_zero]
    rw [ok_bind]
    simp [rd, skipDash, strleneq, strleneqLoop, ch, Stringptr.memEq, rdN]
  rw [e, ok_bind]
  rfl

/-- C69: `op_hasflag` is 1 exactly when some argument is `-flag`, or `--flag` for flags longer than one character, and 0
    otherwise (for every flag that does not itself start with a dash). -/
theorem op_hasflag_correct (p : Op) (as : List (List Byte)) (h : Args p as) (f : SP) (flag : List Byte) (hf : Holds f flag)
    (hd : flag.head? ≠ some (ch '-')) :
    ∃ r, op_hasflag p f = .ok r ∧ ((r = 1 ∧ ∃ i a, 1 ≤ i ∧ as[i]? = some a ∧ Opt flag a []) ∨
      (r = 0 ∧ ¬∃ i a, 1 ≤ i ∧ as[i]? = some a ∧ Opt flag a [])) := by
  have e : ∀ a, Flag flag a ↔ Opt flag a [] := by
    intro a
    rw [opt_iff hd, List.append_nil]; rfl
  have := flagLoop_spec h hf (p.argc + 1) 1 (by omega) (by omega)
  simp only [e] at this
  exact this

/-- C69: a flag of several characters that starts with a dash is only found with two more dashes in front. -/
theorem op_hasflag_dash (p : Op) (as : List (List Byte)) (h : Args p as) (f : SP) (flag : List Byte) (hf : Holds f flag)
    (hd : flag.head? = some (ch '-')) (hl : 1 < flag.length) :
    ∃ r, op_hasflag p f = .ok r ∧ ((r = 1 ∧ ∃ i a, 1 ≤ i ∧ as[i]? = some a ∧ a = bytes! "--" ++ flag) ∨
      (r = 0 ∧ ¬∃ i a, 1 ≤ i ∧ as[i]? = some a ∧ a = bytes! "--" ++ flag)) := by
  have dash2 : (bytes! "--") = [ch '-', ch '-'] := rfl
  have e : ∀ a, Flag flag a ↔ a = bytes! "--" ++ flag := by
    intro a
    rw [dash2]
    unfold Flag
    constructor
    · rintro ⟨h1, h2⟩
      match a, h1 with
      | c :: a, h1 =>
        simp at h1
        subst h1
        unfold off at h2
        split at h2
        · next hh =>
          match a, hh with
          | d :: a, hh =>
            simp at hh
            obtain ⟨_, rfl⟩ := hh
            simp at h2
            simp [h2]
        · next hh =>
          simp at h2
          subst h2
          exact absurd ⟨hl, by simpa [List.head?_eq_getElem?] using hd⟩ hh
    · rintro rfl
      refine ⟨rfl, ?_⟩
      have : off flag.length ([ch '-', ch '-'] ++ flag) = 2 := if_pos ⟨hl, rfl⟩
      rw [this]; simp
  have := flagLoop_spec h hf (p.argc + 1) 1 (by omega) (by omega)
  simp only [e] at this
  exact this

example : Opt (bytes! "verbose") (bytes! "--verbose") [] ∧ Opt (bytes! "v") (bytes! "-v") [] ∧ ¬Opt (bytes! "v") (bytes! "--v") [] :=
  ⟨Or.inr ⟨by decide, rfl⟩, Or.inl rfl, by
    rintro (h | ⟨h, _⟩)
    · exact absurd h (by decide)
    · exact absurd h (by decide)⟩

end Ulz.Props
